import Verif.Proofs.GenfftPolicy
import Verif.Props.DftSolvers
import Verif.Props.Genfft

/-!
# C52: solvers that run codelets; C47: the generated codelets meet the solvers' requirements

`KDft.Sound`, `KDftw.Sound`, `KDftwsq.Sound` (Spec/Codelet.lean) are what the solvers require of a codelet.
-/

namespace FFTW.Props
open Tensor (CLib)
open DftS Spec Genfft

section
variable [CLib]

/-- C52: dft/direct.c without buffering -/
theorem C52_direct (c : KDft) (hc : c.Sound) : (direct c).Sound := direct_sound c hc
/-- C52: dft/direct.c with buffering -/
theorem C52_directbuf (c : KDft) (hc : c.Sound) (taste : Taste) : (directbuf c taste).Sound := directbuf_sound c taste hc
/-- C52: Cooley-Tukey steps by twiddle codelets, dft/dftw-direct.c -/
theorem C52_ct_direct (cexp : ℕ → ℤ → ℝ × ℝ) (c : KDftw) (dec : Dec) (hc : c.Sound cexp (decide (dec = .dit))) (rdx : ℤ) (taste : Taste)
    (taste' : TwP → Flags → Bool) : (ct rdx dec (dftwDirect cexp c taste') taste).Sound :=
  ct_sound rdx dec _ taste (dftwDirect_sound cexp c _ hc taste')
/-- C52: the same with buffering -/
theorem C52_ct_directbuf (cexp : ℕ → ℤ → ℝ × ℝ) (c : KDftw) (dec : Dec) (hc : c.Sound cexp (decide (dec = .dit))) (rdx : ℤ) (taste : Taste)
    (taste' : TwP → Flags → Bool) : (ct rdx dec (dftwDirectbuf cexp c taste') taste).Sound :=
  ct_sound rdx dec _ taste (dftwDirectbuf_sound cexp c _ hc taste')
/-- C52: Cooley-Tukey steps by square (transposing) codelets, dft/dftw-directsq.c; `dec` may be `dif` or `transpose` -/
theorem C52_ct_directsq (cexp : ℕ → ℤ → ℝ × ℝ) (c : KDftwsq) (dec : Dec) (hd : dec ≠ .dit) (hc : c.Sound cexp) (rdx : ℤ) (taste : Taste) :
    (ct rdx dec (dftwDirectsq cexp c) taste).Sound :=
  ct_sound rdx dec _ taste (by rw [decide_eq_false hd]; exact dftwDirectsq_sound cexp c hc)
end

/-- Rader's algorithm is applied to primes only -/
abbrev MagicOk (mp : Magic) : Prop := 2 ≤ mp.raderMin ∧ ∀ p ∈ mp.raderList, p.Prime

/-- C47: the output of gen_notw.ml, any size, possibly specialised to an input stride or input vector stride -/
theorem C47_notw_codelet (mp : Magic) (hmp : MagicOk mp) (n : ℕ) (dis divs : ℤ) : (notw mp n dis 0 divs 0).Sound := notw_sound mp hmp n dis divs

/-- C47: the output of gen_twiddle.ml, decimation in time or frequency, any radix, with each of the three ways to load the twiddle factors -/
theorem C47_twiddle_codelet {cexp : ℕ → ℤ → ℝ × ℝ} (hc : ExactCexp cexp) (mp : Magic) (hmp : MagicOk mp) (P : Policy) (n : ℕ)
    (h : P = loadAll ∧ 1 ≤ n ∨ (P = log2Policy ∨ P = log3Policy) ∧ 2 ≤ n) (dit : Bool) (drs dms : ℤ) :
    (twiddleCodelet mp P dit n drs dms).Sound cexp dit := by
  rcases h with ⟨rfl, h⟩ | ⟨rfl | rfl, h⟩
  · exact twiddle_sound hc mp hmp _ n _ (loadAll_good n h) dit drs dms
  · exact twiddle_sound hc mp hmp _ n _ (log2_good n h) dit drs dms
  · exact twiddle_sound hc mp hmp _ n _ (log3_good n h) dit drs dms

/-- C47: the output of gen_twidsq.ml -dif -/
theorem C47_twidsq_codelet {cexp : ℕ → ℤ → ℝ × ℝ} (hc : ExactCexp cexp) (mp : Magic) (hmp : MagicOk mp) (P : Policy) (n : ℕ)
    (h : P = loadAll ∧ 1 ≤ n ∨ (P = log2Policy ∨ P = log3Policy) ∧ 2 ≤ n) (drs dvs : ℤ) :
    (twidsqCodelet mp P n drs dvs 0).Sound cexp := by
  rcases h with ⟨rfl, h⟩ | ⟨rfl | rfl, h⟩
  · exact twidsq_sound hc mp hmp _ n _ (loadAll_good n h) drs dvs
  · exact twidsq_sound hc mp hmp _ n _ (log2_good n h) drs dvs
  · exact twidsq_sound hc mp hmp _ n _ (log3_good n h) drs dvs

/-- C47, spelled out: a no-twiddle codelet run out of place stores the DFT of each of its `v` inputs -/
theorem C47_notw_runs (mp : Magic) (hmp : MagicOk mp) (n v : ℕ) (is os ivs ovs : ℤ) (I O : Ptr) (st : State) (hI : I.blk < st.next) (hO : O.blk < st.next) (hIO : I.blk ≠ O.blk)
    (hinj : ∀ c c' i i' k k' : ℕ, c < 2 → c' < 2 → i < v → i' < v → k < n → k' < n →
      (c : ℤ) + (i : ℤ) * ovs + (k : ℤ) * os = (c' : ℤ) + (i' : ℤ) * ovs + (k' : ℤ) * os → c = c' ∧ i = i' ∧ k = k') :
    let st' := (notw mp n 0 0 0 0).k I (I + (1 : ℤ)) O (O + (1 : ℤ)) is os v ivs ovs st
    ∀ i < v, ∀ k < n, (⟨st'.mem (O + ((i : ℤ) * ovs + (k : ℤ) * os)), st'.mem (O + ((i : ℤ) * ovs + (k : ℤ) * os + 1))⟩ : ℂ) =
      DFT (-1) n (fun j => ⟨st.mem (I + ((i : ℤ) * ivs + (j : ℤ) * is)), st.mem (I + ((i : ℤ) * ivs + (j : ℤ) * is + 1))⟩) k := by
  intro st' i hi k hk
  have hrun := (C47_notw_codelet mp hmp n 0 0).run I (I + (1 : ℤ)) O (O + (1 : ℤ)) is os v ivs ovs ⟨0, 0, 0, 0⟩ rfl false (by simp)
  have e1 : (I + (1 : ℤ) - I : ℤ) = 1 := by show I.off + 1 - I.off = 1; ring
  have e2 : (O + (1 : ℤ) - O : ℤ) = 1 := by show O.off + 1 - O.off = 1; ring
  rw [e1, e2] at hrun
  have wf : WF ℂ [((⟨n, is, os⟩ : Tensor.Dim), ())] (some [⟨v, ivs, ovs⟩]) 1 1 false true := by
    refine ⟨?_, by simp, by simp, by simp⟩
    show (offs [(2, 1), (n, os), (v, ovs)]).Nodup
    rw [Api.offs_boxes]
    refine (Api.nodup_boxes _).map_on ?_
    intro x hx y hy he
    simp only [List.map_cons, List.map_nil, Api.mem_boxes] at hx hy he
    obtain ⟨c, x1, hc, hx1, rfl⟩ := Api.box_cons.1 hx
    obtain ⟨k, x2, hk, hx2, rfl⟩ := Api.box_cons.1 hx1
    obtain ⟨i, x3, hi, hx3, rfl⟩ := Api.box_cons.1 hx2
    obtain ⟨c', y1, hc', hy1, rfl⟩ := Api.box_cons.1 hy
    obtain ⟨k', y2, hk', hy2, rfl⟩ := Api.box_cons.1 hy1
    obtain ⟨i', y3, hi', hy3, rfl⟩ := Api.box_cons.1 hy2
    obtain rfl : x3 = [] := List.length_eq_zero_iff.1 (by rw [Api.box_length hx3]; rfl)
    obtain rfl : y3 = [] := List.length_eq_zero_iff.1 (by rw [Api.box_length hy3]; rfl)
    simp only [Api.dot_cons, Api.dot_nil] at he
    obtain ⟨r1, r2, r3⟩ := hinj c c' i i' k k' hc hc' hi hi' hk hk' (by linarith)
    rw [r1, r2, r3]
  have hcompat : Compat (locT ℂ 1 1 [((⟨n, is, os⟩ : Tensor.Dim), ())] (some [⟨v, ivs, ovs⟩])) false I O st :=
    ⟨hI, hO, by simp, fun _ a _ b _ h => hIO (by simpa using congrArg Ptr.blk h)⟩
  have := (hrun wf I O st hcompat).2 [((⟨n, is, os⟩, ()), k)] ⟨rfl, by simpa using hk⟩ ((i : ℤ) * ivs, (i : ℤ) * ovs) (by
    rw [pairs_cons]; simp only [Multiset.mem_bind, Multiset.mem_range, Multiset.mem_map]
    exact ⟨i, hi, 0, by simp [pairs, offs], by simp⟩)
  rw [val_c] at this
  simp only [gOut, gSum, dftK] at this
  simp only [List.map_cons, List.map_nil, List.sum_cons, List.sum_nil] at this
  have p1 : O + ((i : ℤ) * ovs + (k : ℤ) * os) = O + ((k : ℤ) * os + 0 + (i : ℤ) * ovs) := congrArg (O + ·) (by ring)
  have p2 : O + ((i : ℤ) * ovs + (k : ℤ) * os + 1) = O + (1 + ((k : ℤ) * os + 0 + (i : ℤ) * ovs)) := congrArg (O + ·) (by ring)
  rw [p1, p2]
  refine this.trans ?_
  unfold DFT
  refine Finset.sum_congr rfl fun j _ => ?_
  rw [val_c, ω_cis, cis]
  congr 1
  · congr 1; push_cast; ring
  · have q1 : I + ((i : ℤ) * ivs + (j : ℤ) * is) = I + ((j : ℤ) * is + 0 + (i : ℤ) * ivs) := congrArg (I + ·) (by ring)
    have q2 : I + ((i : ℤ) * ivs + (j : ℤ) * is + 1) = I + (1 + ((j : ℤ) * is + 0 + (i : ℤ) * ivs)) := congrArg (I + ·) (by ring)
    beta_reduce; rw [q1, q2]

end FFTW.Props
