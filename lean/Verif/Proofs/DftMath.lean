import Verif.Spec.Dft
import Mathlib.Analysis.SpecialFunctions.Trigonometric.Basic
import Mathlib.Algebra.BigOperators.Intervals

namespace FFTW.Spec
open Complex

theorem ω_pow (n m : ℕ) : ω n ^ m = exp (-(2 * Real.pi * I) * (m / n)) := by
  rw [ω, ← exp_nat_mul]; congr 1; ring

theorem ω_pow_cos (n m : ℕ) : ω n ^ m = ⟨Real.cos (2 * Real.pi * m / n), - Real.sin (2 * Real.pi * m / n)⟩ := by
  rw [ω_pow, show -(2 * (Real.pi : ℂ) * I) * ((m : ℂ) / n) = ((-(2 * Real.pi * m / n) : ℝ) : ℂ) * I by push_cast; ring, exp_mul_I]
  apply Complex.ext
  · rw [← ofReal_cos, ← ofReal_sin]; simp [-ofReal_cos, -ofReal_sin]
  · rw [← ofReal_cos, ← ofReal_sin]; simp [-ofReal_cos, -ofReal_sin]

theorem ω_pow_self (n : ℕ) (hn : n ≠ 0) : ω n ^ n = 1 := by
  rw [ω_pow, div_self (by exact_mod_cast hn), mul_one, exp_neg, exp_two_pi_mul_I, inv_one]

theorem ω_ne_zero (n : ℕ) : ω n ≠ 0 := exp_ne_zero _

theorem ω_pow_mod (n m : ℕ) (hn : n ≠ 0) : ω n ^ (m % n) = ω n ^ m := by
  conv_rhs => rw [← Nat.div_add_mod m n, pow_add, pow_mul, ω_pow_self n hn, one_pow, one_mul]

theorem ω_pow_congr {n a b : ℕ} (hn : n ≠ 0) (h : a % n = b % n) : ω n ^ a = ω n ^ b := by
  rw [← ω_pow_mod n a hn, h, ω_pow_mod n b hn]

theorem ω_mul_pow (r m k : ℕ) (hr : r ≠ 0) : ω (r * m) ^ (r * k) = ω m ^ k := by
  rw [ω_pow, ω_pow]; congr 2; push_cast
  rw [mul_div_mul_left _ _ (by exact_mod_cast hr)]

theorem ω_one : ω 1 = 1 := by have := ω_pow_self 1 (by omega); simpa using this

theorem ω_pow_conj (n m : ℕ) (hn : n ≠ 0) {k : ℕ} (h : (m + k) % n = 0) : ω n ^ k = (starRingEnd ℂ) (ω n ^ m) := by
  have h1 : ω n ^ m * ω n ^ k = 1 := by
    rw [← pow_add, ← ω_pow_mod n _ hn, h, pow_zero]
  have h2 : ω n ^ m * (starRingEnd ℂ) (ω n ^ m) = 1 := by
    rw [mul_conj, ω_pow_cos]
    norm_cast
    simp only [normSq_mk]
    have := Real.cos_sq_add_sin_sq (2 * Real.pi * m / n)
    nlinarith
  exact mul_left_cancel₀ (pow_ne_zero _ (ω_ne_zero n)) (h1.trans h2.symm)

/-- `n` odd: pair `j` with `n - j` -/
theorem sum_pair {M : Type*} [AddCommMonoid M] (h : ℕ) (f : ℕ → M) :
    ∑ j ∈ Finset.range (2 * h + 1), f j = f 0 + ∑ i ∈ Finset.range h, (f (i + 1) + f (2 * h - i)) := by
  rw [Finset.sum_range_succ', add_comm]
  congr 1
  rw [show 2 * h = h + h by ring, Finset.sum_range_add, Finset.sum_add_distrib]
  congr 1
  rw [← Finset.sum_range_reflect]
  apply Finset.sum_congr rfl
  intro i hi
  rw [Finset.mem_range] at hi
  congr 1
  omega

end FFTW.Spec
