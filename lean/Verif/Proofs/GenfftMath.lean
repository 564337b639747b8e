import Verif.Model.Genfft
import Mathlib.Algebra.BigOperators.Intervals
import Mathlib.RingTheory.RootsOfUnity.Complex
import Mathlib.Tactic.FieldSimp

/-! # Roots of unity and the elementary identities behind fft.ml -/

namespace FFTW.Genfft
open Complex Finset

theorem cis_add (n : ℕ) (a b : ℤ) : cis n (a + b) = cis n a * cis n b := by
  unfold cis; rw [← exp_add]; congr 1; push_cast; ring
@[simp] theorem cis_zero (n : ℕ) : cis n 0 = 1 := by simp [cis]
theorem cis_neg (n : ℕ) (a : ℤ) : cis n (-a) = (cis n a)⁻¹ := by
  unfold cis; rw [← exp_neg]; congr 1; push_cast; ring
theorem cis_ne_zero (n : ℕ) (a : ℤ) : cis n a ≠ 0 := exp_ne_zero _
theorem cis_full (n : ℕ) (a : ℤ) : cis n (n * a) = 1 := by
  by_cases h : n = 0
  · subst h; simp
  · unfold cis
    rw [exp_eq_one_iff]
    refine ⟨a, ?_⟩
    have : (n : ℂ) ≠ 0 := by exact_mod_cast h
    push_cast; field_simp
theorem cis_congr {n : ℕ} {a b : ℤ} (h : (n : ℤ) ∣ a - b) : cis n a = cis n b := by
  obtain ⟨c, hc⟩ := h
  rw [show a = b + n * c by omega, cis_add, cis_full, mul_one]
theorem cis_scale {r : ℕ} (hr : r ≠ 0) (m : ℕ) (a : ℤ) : cis (r * m) (r * a) = cis m a := by
  unfold cis
  have : (r : ℂ) ≠ 0 := by exact_mod_cast hr
  by_cases hm : m = 0
  · subst hm; simp
  have : (m : ℂ) ≠ 0 := by exact_mod_cast hm
  congr 1
  push_cast; field_simp
theorem cis_eq (n : ℕ) (m : ℤ) : cis n m = ⟨Real.cos (2 * Real.pi * m / n), Real.sin (2 * Real.pi * m / n)⟩ := by
  have e : (2 * Real.pi * I * m / n : ℂ) = ((2 * Real.pi * m / n : ℝ) : ℂ) * I := by push_cast; ring
  rw [cis, e, exp_mul_I, ← ofReal_cos, ← ofReal_sin]
  apply Complex.ext <;> simp [-ofReal_cos, -ofReal_sin]
theorem conj_eq (x : ℂ) : conj x = (starRingEnd ℂ) x := rfl
theorem conj_cis (n : ℕ) (m : ℤ) : conj (cis n m) = cis n (-m) := by
  rw [cis_eq, cis_eq]
  unfold conj
  have : (2 * Real.pi * ((-m : ℤ) : ℝ) / n : ℝ) = -(2 * Real.pi * m / n) := by push_cast; ring
  rw [this, Real.cos_neg, Real.sin_neg]
theorem cis_two (k : ℕ) : cis 2 (2 * k + 1 : ℕ) = -1 := by
  push_cast
  rw [cis_add]
  have := cis_full 2 k
  push_cast at this
  rw [this, one_mul, cis_eq]
  apply Complex.ext <;> simp

theorem cis_pow (n : ℕ) (k : ℤ) (j : ℕ) : cis n (j * k) = cis n k ^ j := by
  unfold cis; rw [← exp_nat_mul]; congr 1; push_cast; ring

theorem cis_eq_one {n : ℕ} (hn : n ≠ 0) {k : ℤ} : cis n k = 1 ↔ (n : ℤ) ∣ k := by
  constructor
  · intro h
    unfold cis at h
    rw [exp_eq_one_iff] at h
    obtain ⟨a, ha⟩ := h
    refine ⟨a, ?_⟩
    have h1 : (n : ℂ) ≠ 0 := by exact_mod_cast hn
    have h2 : (2 * Real.pi * I : ℂ) ≠ 0 := two_pi_I_ne_zero
    have h3 : (2 * Real.pi * I : ℂ) * ((k : ℂ)) = (2 * Real.pi * I) * (n * a) := by
      field_simp at ha ⊢
      linear_combination ha
    have := mul_left_cancel₀ h2 h3
    exact_mod_cast this
  · rintro ⟨c, rfl⟩; exact cis_full n c

/-- the sum of the powers of a root of unity -/
theorem cis_sum {n : ℕ} (hn : n ≠ 0) (k : ℤ) : ∑ j ∈ range n, cis n (j * k) = if (n : ℤ) ∣ k then (n : ℂ) else 0 := by
  split
  · rename_i h
    rw [sum_congr rfl (g := fun _ => (1 : ℂ)) (fun j _ => (cis_eq_one hn).2 (Dvd.dvd.mul_left h _))]
    simp
  · rename_i h
    simp only [cis_pow]
    have h1 : cis n k ≠ 1 := fun e => h ((cis_eq_one hn).1 e)
    have h2 := geom_sum_mul (cis n k) n
    rw [← cis_pow, cis_full, sub_self] at h2
    exact (mul_eq_zero.1 h2).resolve_right (sub_ne_zero.2 h1)

theorem sigma_eq (a b : ℕ) (f : ℕ → ℂ) : sigma a b f = ∑ j ∈ Ico a b, f j := by
  unfold sigma
  rw [sum_Ico_eq_sum_range]
  rw [show List.range' a (b - a) = (List.range (b - a)).map (a + ·) by rw [List.range'_eq_map_range]]
  rw [List.map_map]
  rfl

theorem times3x3_eq (x y : ℂ) : times3x3 x y = x * y := by
  unfold times3x3
  apply Complex.ext <;> simp <;> ring

/-- what `dft sign n` must compute -/
noncomputable def dftSum (sign : ℤ) (n : ℕ) (x : ℕ → ℂ) (k : ℕ) : ℂ := ∑ j ∈ range n, cis n (sign * j * k) * x j

/-- `f` is a DFT on sizes in `S` -/
def IsDft (f : Dft) (n : ℕ) : Prop := ∀ sign : ℤ, sign = 1 ∨ sign = -1 → ∀ x, ∀ k < n, f sign n x k = dftSum sign n x k

theorem sum_mul_range {M : Type*} [AddCommMonoid M] (n1 n2 : ℕ) (f : ℕ → M) :
    ∑ j ∈ range (n1 * n2), f j = ∑ b ∈ range n2, ∑ a ∈ range n1, f (a * n2 + b) := by
  by_cases h0 : n2 = 0
  · subst h0; simp
  rw [← sum_product']
  refine (sum_bij' (fun p _ => p.2 * n2 + p.1) (fun j _ => (j % n2, j / n2)) ?_ ?_ ?_ ?_ ?_).symm
  · rintro ⟨b, a⟩ h
    simp only [mem_product, mem_range] at h ⊢
    calc a * n2 + b < a * n2 + n2 := by omega
      _ = (a + 1) * n2 := by ring
      _ ≤ n1 * n2 := Nat.mul_le_mul_right _ h.2
  · intro j h
    simp only [mem_product, mem_range] at h ⊢
    exact ⟨Nat.mod_lt _ (by omega), Nat.div_lt_of_lt_mul (by rwa [mul_comm])⟩
  · rintro ⟨b, a⟩ h
    simp only [mem_product, mem_range] at h
    simp only [Prod.mk.injEq]
    exact ⟨by rw [Nat.mul_add_mod', Nat.mod_eq_of_lt h.1], by rw [mul_comm, Nat.mul_add_div (by omega), Nat.div_eq_of_lt h.1, add_zero]⟩
  · intro j _; exact Nat.div_add_mod' j n2
  · intros; rfl

/-! ### Cooley-Tukey -/

theorem cooleyTukey_ok (rec : Dft) (sign : ℤ) (hs : sign = 1 ∨ sign = -1) (n1 n2 : ℕ) (h1 : IsDft rec n1) (h2 : IsDft rec n2) (x : Signal) (k : ℕ) (hk : k < n1 * n2) :
    cooleyTukey rec sign (n1 * n2) n1 n2 x k = dftSum sign (n1 * n2) x k := by
  have hn1 : 0 < n1 := Nat.pos_of_ne_zero (by rintro rfl; simp at hk)
  have hn2 : 0 < n2 := Nat.pos_of_ne_zero (by rintro rfl; simp at hk)
  have hkm : k % n1 < n1 := Nat.mod_lt _ hn1
  have hkd : k / n1 < n2 := Nat.div_lt_of_lt_mul hk
  unfold cooleyTukey
  simp only [array, if_pos hkm]
  rw [h2 sign hs _ _ hkd, dftSum, dftSum, sum_mul_range]
  refine sum_congr rfl fun i2 hi2 => ?_
  rw [mem_range] at hi2
  simp only [array, if_pos hi2]
  rw [h1 sign hs _ _ hkm, dftSum, mul_sum, mul_sum]
  refine sum_congr rfl fun a ha => ?_
  rw [← mul_assoc, ← mul_assoc, ← cis_scale (r := n1) (by omega) n2, mul_comm n1 n2, ← cis_scale (r := n2) (by omega) n1, ← cis_add, ← cis_add]
  congr 1
  have hk2 : (k : ℤ) = (k % n1 : ℕ) + n1 * (k / n1 : ℕ) := by exact_mod_cast (Nat.mod_add_div k n1).symm
  apply cis_congr
  refine ⟨- (sign * a * (k / n1 : ℕ)), ?_⟩
  generalize ((k % n1 : ℕ) : ℤ) = k1 at *
  generalize ((k / n1 : ℕ) : ℤ) = k2 at *
  rw [hk2]
  push_cast
  ring

end FFTW.Genfft
