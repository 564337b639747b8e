import Verif.Proofs.Hc2c
import Verif.Proofs.GenfftHc2c
import Verif.Props.Codelets

/-!
# C42 for real-to-complex and complex-to-real transforms: Cooley-Tukey between real and complex arrays; C52, C47: its codelets

`hc2cStep` (Spec/Hc2c.lean) is the twiddle step, `CInferior.Sound` says that a maker of twiddle steps makes programs that compute it,
`KHc2c.Sound` (Spec/CodeletHc2c.lean) is what the solver requires of a codelet.
-/

namespace FFTW.Props
open Tensor (CLib)
open DftS (Taste)
open Rdft2S Spec Genfft

/-- C42, the index arithmetic forwards: from the transforms `F_b` of the `r` interleaved parts of a real sequence the step computes the transform
of the sequence -/
theorem C42_hc2c_dit_identity (via : Hc2cKind) (r m : ℕ) (hr : r ≠ 0) (hm : m ≠ 0) (S : ℕ → ℕ → ℝ) (x : ℕ → ℝ)
    (h : ∀ b < r, ∀ k < m, hc2cRow via m S b k = ∑ i ∈ Finset.range m, ω m ^ (i * k) * (x (i * r + b) : ℂ)) (f : ℕ) :
    (⟨hc2cStep via true r m S 0 f, hc2cStep via true r m S 1 f⟩ : ℂ) = ∑ j ∈ Finset.range (r * m), ω (r * m) ^ (j * f) * (x j : ℂ) := by
  rw [← hc2c_dit via hr hm S x h]
  simp [hc2cStep, part]

/-- C42: backwards the step followed by the transforms of the parts back to real data is the transform of the whole spectrum; output `i` of part
`b` is element `i*r + b` -/
theorem C42_hc2c_dif_identity (r m : ℕ) (hr : r ≠ 0) (hm : m ≠ 0) (S : ℕ → ℕ → ℝ) (b i : ℕ) :
    ∑ k ∈ Finset.range m, (starRingEnd ℂ) (ω m) ^ (k * i) * hc2cBwd r m S b k =
      ∑ f ∈ Finset.range (r * m), (starRingEnd ℂ) (ω (r * m)) ^ (f * (i * r + b)) * hc2cSpec (r * m) S f := by
  have e : ∑ f ∈ Finset.range (r * m), (starRingEnd ℂ) (ω (r * m)) ^ (f * (i * r + b)) * hc2cSpec (r * m) S f =
      ∑ q ∈ Finset.range (r * m), (starRingEnd ℂ) (ω (r * m)) ^ (q * (i * r + b)) * unpackHc (r * m) (hcOf (r * m) S) q :=
    Finset.sum_congr rfl fun f hf => by rw [hc2cSpec_eq S (Finset.mem_range.1 hf)]
  rw [hc2c_dif hr hm, hc2r_unpack, e]
  apply Complex.ext
  · simp
  · rw [herm_real]; simp

section
variable [CLib]

/-- C42: rdft/ct-hc2c.c is correct for every problem (any size, strides, batch, in place or not, either direction), by real or by complex
transforms, given correct twiddle steps -/
theorem C42_ct_hc2c (via : Hc2cKind) (rdx : ℤ) (mkcldw : CInferior) (taste : Taste) (hw : CInferior.Sound via mkcldw) : (ctHc2c via rdx mkcldw taste).Sound :=
  ctHc2c_sound hw rdx taste

/-- C52: twiddle steps by codelets, with or without a buffer, rdft/ct-hc2c-direct.c -/
theorem C52_hc2c_direct (via : Hc2cKind) (cexp : ℕ → ℤ → ℝ × ℝ) (c : KHc2c) (hc : c.Sound via cexp) (bufferedp : Bool) (rdx : ℤ) (taste : Taste)
    (taste' : Hc2cP → Flags → Bool) : (ctHc2c via rdx (hc2cDirect cexp c bufferedp taste') taste).Sound :=
  C42_ct_hc2c via rdx _ taste (hc2cDirect_sound hc bufferedp taste')

end

/-- C47: the output of gen_hc2c.ml (`viaRdft`) and gen_hc2cdft.ml (`viaDft`), any even radix, either direction, with each of the three ways to load
the twiddle factors -/
theorem C47_hc2c_codelet {cexp : ℕ → ℤ → ℝ × ℝ} (hc : ExactCexp cexp) (mp : Magic) (hmp : MagicOk mp) (P : Policy) (n : ℕ) (h0 : n % 2 = 0)
    (h : P = loadAll ∧ 1 ≤ n ∨ (P = log2Policy ∨ P = log3Policy) ∧ 2 ≤ n) (via : Hc2cKind) (dit : Bool) : (hc2cCodelet mp P via dit n).Sound via cexp := by
  rcases h with ⟨rfl, h⟩ | ⟨rfl | rfl, h⟩
  · exact hc2c_codelet_sound hc mp hmp _ n h0 _ (loadAll_good n h) via dit
  · exact hc2c_codelet_sound hc mp hmp _ n h0 _ (log2_good n h) via dit
  · exact hc2c_codelet_sound hc mp hmp _ n h0 _ (log3_good n h) via dit

section
variable [CLib]

/-- an r2c transform of size 48 in place, batch of 4, radix 4 by a codelet, by complex transforms; a c2r transform of size 1600 out of place with a
buffer, by real transforms -/
example (cexp : ℕ → ℤ → ℝ × ℝ) (mp : Magic) (fl : Flags) (c : Plan) :
    (((ctHc2c .viaDft 4 (hc2cDirect cexp (hc2cCodelet mp loadAll .viaDft true 4) false fun _ _ => true) fun _ _ => true).mkplan
      (.rdft2 ⟨[⟨48, 2, 2⟩], some [⟨4, 50, 50⟩], ⟨0, 0⟩, ⟨0, 1⟩, ⟨0, 0⟩, ⟨0, 1⟩, .R2HC⟩) fl).answer c).isSome = true := by
  have h3 : Primes.chooseRadix 4 48 = some 4 := by rw [Primes.chooseRadix_pos (by norm_num) (by norm_num) (by unfold INT_MAX; norm_num)]; rfl
  simp [ctHc2c, rdft2Solver, DftS.tornk1, h3, Mk.needC, hc2cDirect, hc2cCodelet, Mk.need, Mk.bind, Mk.answer]
example (cexp : ℕ → ℤ → ℝ × ℝ) (mp : Magic) (fl : Flags) (hfl : fl.nd = false) (c : Plan) :
    (((ctHc2c .viaRdft 16 (hc2cDirect cexp (hc2cCodelet mp log3Policy .viaRdft false 16) true fun _ _ => true) fun _ _ => true).mkplan
      (.rdft2 ⟨[⟨16 * 100, 2, 2⟩], some [], ⟨1, 0⟩, ⟨1, 1⟩, ⟨0, 0⟩, ⟨0, 1⟩, .HC2R⟩) fl).answer c).isSome = true := by
  have h3 : Primes.chooseRadix 16 1600 = some 16 := by rw [Primes.chooseRadix_pos (by norm_num) (by norm_num) (by unfold INT_MAX; norm_num)]; rfl
  simp [ctHc2c, rdft2Solver, DftS.tornk1, h3, hfl, Mk.needC, hc2cDirect, hc2cCodelet, Mk.need, Mk.bind, Mk.answer]

end
end FFTW.Props
