import Verif.Proofs.GenfftR2r
import Verif.Props.CodeletsR
import Verif.Props.DftSolvers

/-!
# C52: the solver that runs real-to-real codelets; C47: the generated cosine, sine and Hartley transforms
-/

namespace FFTW.Props
open Tensor (CLib)
open DftS RdftS Spec Genfft Real

/-- C52: rdft/direct-r2r.c -/
theorem C52_direct_r2r [CLib] (c : KR2r) (hc : c.Sound) : (directR2r c).Sound := directR2r_sound c hc

/-- C47: the output of gen_r2r.ml, any kind, any size for which the transform is defined, whatever the nonexistent array `BUG` contains -/
theorem C47_r2r_codelet (mp : Magic) (hmp : MagicOk mp) (bug : ℕ → ℝ) (mode : R2rMode) (n : ℕ) (hm : mode = .REDFT00 → 2 ≤ n) :
    (r2r mp bug mode n).Sound := r2r_sound hmp bug mode n hm

/-- C47, spelled out: a codelet run on `v` vectors, all apart, leaves the transforms, as defined in the manual, of each of them and changes nothing else -/
theorem C47_r2r_runs (mp : Magic) (hmp : MagicOk mp) (bug : ℕ → ℝ) (mode : R2rMode) (n : ℕ) (hm : mode = .REDFT00 → 2 ≤ n)
    (I O : Ptr) (is os : ℤ) (v : ℕ) (ivs ovs : ℤ) (st : State)
    (hO : ∀ i < v, ∀ k < n, ∀ i' < v, ∀ k' < n, (i : ℤ) * ovs + (k : ℤ) * os = (i' : ℤ) * ovs + (k' : ℤ) * os → i = i' ∧ k = k')
    (hIO : ∀ i < v, ∀ j < n, ∀ i' < v, ∀ k < n, I + ((i : ℤ) * ivs + (j : ℤ) * is) = O + ((i' : ℤ) * ovs + (k : ℤ) * os) → i = i') :
    let st' := (r2r mp bug mode n).k I O is os v ivs ovs st
    (∀ i < v, ∀ k < n, st'.mem (O + ((i : ℤ) * ovs + (k : ℤ) * os)) =
      ∑ j ∈ Finset.range n, rK mode.kind n j k * st.mem (I + ((i : ℤ) * ivs + (j : ℤ) * is))) ∧
    ∀ q, (∀ i < v, ∀ k < n, q ≠ O + ((i : ℤ) * ovs + (k : ℤ) * os)) → st'.mem q = st.mem q := by
  intro st'
  have hs := C47_r2r_codelet mp hmp bug mode n hm
  have key := forN_inv (n := v) (f := fun i st => (r2r mp bug mode n).k (I + (i : ℤ) * ivs) (O + (i : ℤ) * ovs) is os 1 0 0 st) (st := st)
    (P := fun m s => (∀ i < v, i < m → ∀ k < n, s.mem (O + ((i : ℤ) * ovs + (k : ℤ) * os)) =
      ∑ j ∈ Finset.range n, rK mode.kind n j k * st.mem (I + ((i : ℤ) * ivs + (j : ℤ) * is))) ∧
      ∀ q, (∀ i < v, i < m → ∀ k < n, q ≠ O + ((i : ℤ) * ovs + (k : ℤ) * os)) → s.mem q = st.mem q) ⟨by intro i _ h; omega, fun _ _ => rfl⟩ (by
    rintro m hm' s ⟨h1, h2⟩
    have one := hs.one (I + (m : ℤ) * ivs) (O + (m : ℤ) * ovs) is os s (fun k hk k' hk' e => by
      rw [Ptr.add_add, Ptr.add_add, ptr_add_right_inj] at e
      exact (hO m hm' k hk m hm' k' hk' e).2)
    have hv := one.val
    have ho := one.other
    simp only [Ptr.add_add] at hv ho
    refine ⟨fun i hi him k hk => ?_, fun q hq => ?_⟩
    · by_cases e : i = m
      · subst e
        rw [hv k hk]
        refine Finset.sum_congr rfl fun j hj => ?_
        rw [h2 _ fun i' hi' hlt k' hk' e => ?_]
        · rfl
        · have := hIO i hi j (Finset.mem_range.1 hj) i' hi' k' hk' e
          omega
      · rw [ho _ fun k' hk' e' => e (hO i hi k hk m hm' k' hk' ((ptr_add_right_inj O).1 e')).1, h1 i hi (by omega) k hk]
    · rw [ho q fun k hk => hq m hm' (by omega) k hk, h2 q fun i hi him k hk => hq i hi (by omega) k hk])
  have e : st' = forN v (fun i st => (r2r mp bug mode n).k (I + (i : ℤ) * ivs) (O + (i : ℤ) * ovs) is os 1 0 0 st) st := hs.loop I O is os v ivs ovs st
  rw [e]
  exact ⟨fun i hi k hk => key.1 i hi hi k hk, fun q hq => key.2 q fun i hi _ k hk => hq i hi k hk⟩

/-- the eight rows of a JPEG block, in place -/
example (P : Ptr) (st : State) (i k : ℕ) (hi : i < 8) (hk : k < 8) :
    ((r2r {} (fun _ => 0) .REDFT10 8).k P P 1 1 8 8 8 st).mem (P + ((i : ℤ) * 8 + (k : ℤ) * 1)) =
      ∑ j ∈ Finset.range 8, 2 * cos (π * (j + 1 / 2) * k / (8 : ℕ)) * st.mem (P + ((i : ℤ) * 8 + (j : ℤ) * 1)) :=
  (C47_r2r_runs {} (by refine ⟨by decide, ?_⟩; simp only [List.mem_singleton, forall_eq]; exact Nat.prime_five) _ .REDFT10 8 (by simp) P P 1 1 8 8 8 st
    (by intro i _ k _ i' _ k' _ h; omega) (by
      intro i _ j _ i' _ k _ h
      rw [ptr_add_right_inj] at h
      omega)).1 i hi k hk

/-- the solver takes these rows, in place -/
example [CLib] (mp : Magic) (bug : ℕ → ℝ) (p : Ptr) :
    directR2rApplicable (r2r mp bug .REDFT10 8) ⟨[(⟨8, 1, 1⟩, .REDFT10)], some [⟨8, 8, 8⟩], p, p⟩ ⟨8, 1, 1⟩ .REDFT10 [⟨8, 8, 8⟩] ⟨8, 8, 8⟩ = true := by
  simp [directR2rApplicable, r2r, R2rMode.kind, Tensor.inplaceStrides2, Tensor.inplaceStrides]

end FFTW.Props
