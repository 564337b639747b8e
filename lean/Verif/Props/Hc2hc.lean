import Verif.Proofs.Hc2hc
import Verif.Proofs.Hc2hcGeneric
import Verif.Proofs.GenfftHc2hc
import Verif.Props.Codelets

/-!
# C42 for real transforms: Cooley-Tukey on halfcomplex arrays; C52, C47: its codelets

`hcStep` (Spec/HcStep.lean) is the twiddle step on a halfcomplex array, `HInferior.Sound` says that a maker of twiddle steps makes programs that
compute it, `KHc2hc.Sound` (Spec/CodeletHc.lean) is what the solver requires of a codelet.
-/

namespace FFTW.Props
open Tensor (CLib)
open DftS (Taste)
open RdftS Spec Genfft

/-- C42, the index arithmetic: `r` interleaved halfcomplex transforms of size `m` followed by the step are the transform of size `r*m` -/
theorem C42_hc_dit_identity (r m : ℕ) (hr : r ≠ 0) (hm : m ≠ 0) (x u : ℕ → ℝ)
    (hu : ∀ k < r, ∀ l < m, u (k * m + l) = ∑ i ∈ Finset.range m, rK .R2HC00 m i l * x (i * r + k)) (p : ℕ) (hp : p < r * m) :
    hcStep true r m u p = ∑ j ∈ Finset.range (r * m), rK .R2HC00 (r * m) j p * x j := hc_dit r m hr hm x hp u hu

/-- C42: the step followed by `r` transforms of size `m` back to real data is the transform of size `r*m`; output `i` of row `k` is element
`i*r + k` -/
theorem C42_hc_dif_identity (r m : ℕ) (hr : r ≠ 0) (hm : m ≠ 0) (u : ℕ → ℝ) (k i : ℕ) :
    ∑ l ∈ Finset.range m, rK .HC2R00 m l i * hcStep false r m u (k * m + l) = ∑ p ∈ Finset.range (r * m), rK .HC2R00 (r * m) p (i * r + k) * u p :=
  hc_dif r m hr hm u (hcStep false r m u) i fun _ _ => rfl

section
variable [CLib]

/-- C42: rdft/hc2hc.c is correct for every problem (any size, strides, batch, in place or not, either direction) given correct twiddle steps -/
theorem C42_hc2hc (rdx : ℤ) (mkcldw : HInferior) (taste : Taste) (hw : HInferior.Sound mkcldw) : (hc2hc rdx mkcldw taste).Sound :=
  hc2hc_sound rdx mkcldw taste hw

/-- C42: the twiddle step of rdft/hc2hc-generic.c, for all odd `r` and `m`, and any range of columns -/
theorem C42_hc_step_generic {cexp : ℕ → ℤ → ℝ × ℝ} (hc : ExactCexp cexp) (taste : HcP → Flags → Bool) : HInferior.Sound (hc2hcGeneric cexp taste) :=
  hc2hcGeneric_sound hc taste

/-- C42, no hypotheses on sub-programs left -/
theorem C42_hc2hc_generic {cexp : ℕ → ℤ → ℝ × ℝ} (hc : ExactCexp cexp) (rdx : ℤ) (taste : Taste) (taste' : HcP → Flags → Bool) :
    (hc2hc rdx (hc2hcGeneric cexp taste') taste).Sound := C42_hc2hc rdx _ taste (C42_hc_step_generic hc taste')

/-- C52: twiddle steps by codelets, with or without a buffer, rdft/hc2hc-direct.c -/
theorem C52_hc2hc_direct (cexp : ℕ → ℤ → ℝ × ℝ) (c : KHc2hc) (hc : c.Sound cexp) (bufferedp : Bool) (rdx : ℤ) (taste : Taste) (taste' : HcP → Flags → Bool) :
    (hc2hc rdx (hc2hcDirect cexp c bufferedp taste') taste).Sound := C42_hc2hc rdx _ taste (hc2hcDirect_sound hc bufferedp taste')

end

/-- C47: the output of gen_hc2hc.ml, any radix, either direction, with each of the three ways to load the twiddle factors -/
theorem C47_hc2hc_codelet {cexp : ℕ → ℤ → ℝ × ℝ} (hc : ExactCexp cexp) (mp : Magic) (hmp : MagicOk mp) (P : Policy) (n : ℕ)
    (h : P = loadAll ∧ 1 ≤ n ∨ (P = log2Policy ∨ P = log3Policy) ∧ 2 ≤ n) (dit : Bool) : (hc2hcCodelet mp P dit n).Sound cexp := by
  rcases h with ⟨rfl, h⟩ | ⟨rfl | rfl, h⟩
  · exact hc2hc_codelet_sound hc mp hmp _ n _ (loadAll_good n h) dit
  · exact hc2hc_codelet_sound hc mp hmp _ n _ (log2_good n h) dit
  · exact hc2hc_codelet_sound hc mp hmp _ n _ (log3_good n h) dit

section
variable [CLib]

/-- a real transform of size 15 in place, batch of 4, radix 3 by the generic step (five children); back to real data by a codelet, with a buffer -/
example (cexp : ℕ → ℤ → ℝ × ℝ) (fl : Flags) (c : Plan) :
    (((hc2hc 3 (hc2hcGeneric cexp fun _ _ => true) fun _ _ => true).mkplan
      (.rdft ⟨[(⟨15, 2, 2⟩, .R2HC00)], some [⟨4, 30, 30⟩], ⟨0, 0⟩, ⟨0, 0⟩⟩) fl).answer c).isSome = true := by
  have h3 : Primes.chooseRadix 3 15 = some 3 := by rw [Primes.chooseRadix_pos (by norm_num) (by norm_num) (by unfold INT_MAX; norm_num)]; rfl
  simp [hc2hc, hc2hcWith, rdftSolver, DftS.tornk1, h3, Mk.needH, hc2hcGeneric, Mk.need, Mk.bind, Mk.answer]
example (cexp : ℕ → ℤ → ℝ × ℝ) (mp : Magic) (fl : Flags) (c : Plan) :
    (((hc2hc 16 (hc2hcDirect cexp (hc2hcCodelet mp log3Policy false 16) true fun _ _ => true) fun _ _ => true).mkplan
      (.rdft ⟨[(⟨16 * 100, 2, 2⟩, .HC2R00)], some [], ⟨0, 0⟩, ⟨0, 0⟩⟩) fl).answer c).isSome = true := by
  have h3 : Primes.chooseRadix 16 1600 = some 16 := by rw [Primes.chooseRadix_pos (by norm_num) (by norm_num) (by unfold INT_MAX; norm_num)]; rfl
  simp [hc2hc, hc2hcWith, rdftSolver, DftS.tornk1, h3, Mk.needH, hc2hcDirect, hc2hcCodelet, Mk.need, Mk.bind, Mk.answer]

end
end FFTW.Props
