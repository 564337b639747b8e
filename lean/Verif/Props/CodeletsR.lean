import Verif.Proofs.GenfftReal
import Verif.Proofs.CodeletsR
import Verif.Proofs.Direct2
import Verif.Props.Codelets

/-!
# C52: solvers that run real codelets; C47: the generated real codelets meet the solvers' requirements

`KR2c.Sound` (Spec/CodeletR.lean) is what the solvers require of a real codelet.
-/

namespace FFTW.Props
open Tensor (CLib)
open DftS RdftS Spec Genfft

section
variable [CLib]

/-- C52: rdft/direct-r2c.c without buffering -/
theorem C52_direct_r2c (c : KR2c) (hc : c.Sound) : (directR c).Sound := directR_sound c hc
/-- C52: rdft/direct-r2c.c with buffering -/
theorem C52_directbuf_r2c (c : KR2c) (hc : c.Sound) : (directbufR c).Sound := directbufR_sound c hc
/-- C52, C54: rdft/direct2.c, the codelets on r2c and c2r problems -/
theorem C52_direct2 (c : KR2c) (hc : c.Sound) : (Rdft2S.direct2 c).Sound := direct2_sound c hc
end

/-- C47: the output of gen_r2cf.ml, any size, with and without -dft-II -/
theorem C47_r2cf_codelet (mp : Magic) (hmp : MagicOk mp) (II : Bool) (n : ℕ) : (r2cf mp II n).Sound := r2cf_sound mp hmp II n
/-- C47: the output of gen_r2cb.ml, any size, with and without -dft-III -/
theorem C47_r2cb_codelet (mp : Magic) (hmp : MagicOk mp) (III : Bool) (n : ℕ) : (r2cb mp III n).Sound := r2cb_sound mp hmp III n

/-- C47: what the model's forward codelets do not store is 0 whatever the input -/
theorem C47_elided_stores (mp : Magic) (hmp : MagicOk mp) (II : Bool) (n : ℕ) (A : ℕ → Ptr) (st : State) (k : ℕ) :
    let X := (if II then rdftII mp (-1) else rdft mp (-1)) n (loadR n A st)
    (k ≤ n - k → zeroRe II n k = true → (X k).re = 0) ∧ (k < n - k → zeroIm II n k = true → (X k).im = 0) := by
  have e : (if II then rdftII mp (-1) else rdft mp (-1)) n (loadR n A st) = fwd mp II n (array n fun i => ⟨st.mem (A i), 0⟩) := by
    unfold fwd loadR; cases II <;> rfl
  rw [e]
  exact ⟨fun h z => elided_re _ II z h, fun h z => elided_im hmp _ II z h⟩

/-- C47, spelled out: a forward codelet run in place on `n` consecutive numbers leaves real and imaginary parts of their DFT, in halfcomplex format -/
theorem C47_r2cf_runs (mp : Magic) (hmp : MagicOk mp) (n : ℕ) (P : Ptr) (st : State) :
    let st' := (r2cf mp false n).k P (P + (1 : ℤ)) P (P + (n : ℤ)) 2 1 (-1) 1 0 0 st
    (∀ k, k < n → 2 * k ≤ n → st'.mem (P + (k : ℤ)) = (DFT (-1) n (fun j => (st.mem (P + (j : ℤ)) : ℂ)) k).re) ∧
    (∀ k, 0 < k → 2 * k < n → st'.mem (P + ((n - k : ℕ) : ℤ)) = (DFT (-1) n (fun j => (st.mem (P + (j : ℤ)) : ℂ)) k).im) ∧
    ∀ q, (∀ k < n, q ≠ P + (k : ℤ)) → st'.mem q = st.mem q := by
  intro st'
  have e1 : ∀ j, realAt P (P + (1 : ℤ)) 2 j = P + (j : ℤ) := by
    intro j
    have := realAt_stride P 1 j
    rw [show (2 : ℤ) = 2 * 1 by rfl, this, mul_one]
  have e2 : ∀ j < n, hcAt n 0 P (P + (n : ℤ)) 1 (-1) j = P + (j : ℤ) := by
    intro j hj
    have := hcAt_stride (kind := .R2HC00) (Or.inl rfl) P 1 hj
    rw [show ioffset .R2HC00 n 1 = n by simp [ioffset]] at this
    refine this.trans ?_
    rw [mul_one]
  have h : RdftS.Computes .R2HC00 n (realAt P (P + (1 : ℤ)) 2) (hcAt n 0 P (P + (n : ℤ)) 1 (-1)) st st' := by
    have h := (r2cf_sound mp hmp false n).one P (P + (1 : ℤ)) P (P + (n : ℤ)) 2 1 (-1) st
    dsimp only at h
    rw [if_pos (show r2hcKindp (r2cf mp false n).kind = true from rfl)] at h
    refine h ?_
    intro j hj j' hj' he
    have he : hcAt n 0 P (P + (n : ℤ)) 1 (-1) j = hcAt n 0 P (P + (n : ℤ)) 1 (-1) j' := he
    rw [e2 j hj, e2 j' hj', ptr_add_right_inj] at he
    exact_mod_cast he
  have hd : ∀ k < n, DFT (-1) n (fun j => (st.mem (P + (j : ℤ)) : ℂ)) k = rdft mp (-1) n (array n fun i => ⟨st.mem (P + (i : ℤ)), 0⟩) k := by
    intro k hk
    unfold rdft
    rw [C47_generator_computes_dft mp hmp (-1) (Or.inr rfl) n _ k hk]
    unfold DFT
    refine Finset.sum_congr rfl fun j hj => ?_
    beta_reduce
    rw [array_eq (Finset.mem_range.1 hj)]
    rfl
  refine ⟨fun k hk h2 => ?_, fun k h0 h2 => ?_, fun q hq => h.other q fun k hk => by rw [e2 k hk]; exact hq k hk⟩
  · have := h.val k hk
    rw [e2 k hk] at this
    rw [this, hd k hk]
    have f := fwd_slot hmp false hk (fun i => st.mem (P + (i : ℤ)))
    rw [if_pos (by exact h2)] at f
    refine Eq.trans ?_ f
    exact Finset.sum_congr rfl fun j _ => by rw [e1]; rfl
  · have := h.val (n - k) (by omega)
    rw [e2 _ (by omega)] at this
    rw [this, hd k (by omega)]
    have f := fwd_slot hmp false (show n - k < n by omega) (fun i => st.mem (P + (i : ℤ)))
    rw [if_neg (by show ¬ 2 * (n - k) + 0 ≤ n; omega), show n - freqShift (kindF false) - (n - k) = k by show n - 0 - (n - k) = k; omega] at f
    refine Eq.trans ?_ f
    exact Finset.sum_congr rfl fun j _ => by rw [e1]; rfl

/-- e.g. size 9 with the default parameters -/
example (P : Ptr) (st : State) : ((r2cf {} false 9).k P (P + (1 : ℤ)) P (P + (9 : ℤ)) 2 1 (-1) 1 0 0 st).mem (P + (7 : ℤ)) =
    (DFT (-1) 9 (fun j => (st.mem (P + (j : ℤ)) : ℂ)) 2).im :=
  (C47_r2cf_runs {} (by refine ⟨by decide, ?_⟩; simp only [List.mem_singleton, forall_eq]; exact Nat.prime_five) 9 P st).2.1 2 (by omega) (by omega)

end FFTW.Props
