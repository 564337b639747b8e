import Verif.Proofs.RdftDht
import Verif.Spec.R2r

/-!
# Orthogonality of the trigonometric kernels
-/

namespace FFTW.R2rInv
open Spec Real Finset RdftS

theorem sin_ne {n : ℕ} (hn : 0 < n) {a : ℤ} (h0 : a ≠ 0) (h1 : a < 2 * n) (h2 : -(2 * n : ℤ) < a) : sin (π * a / (2 * n)) ≠ 0 := by
  intro h
  obtain ⟨m, hm⟩ := Real.sin_eq_zero_iff.1 h
  have hn' : (n : ℝ) ≠ 0 := by positivity
  have hp := Real.pi_ne_zero
  field_simp at hm
  have : m * (2 * n) = a := by exact_mod_cast (by linarith : (m : ℝ) * (2 * n) = a)
  rcases lt_trichotomy m 0 with hm0 | hm0 | hm0
  · nlinarith
  · subst hm0; omega
  · nlinarith

/-- `∑ cos (π (k + 1/2) a / n)` -/
theorem sumF {n : ℕ} (hn : 0 < n) {a : ℤ} (h0 : a ≠ 0) (h1 : a < 2 * n) (h2 : -(2 * n : ℤ) < a) : ∑ k ∈ range n, cos (π * (k + 1 / 2) * a / n) = 0 := by
  have hs := sin_ne hn h0 h1 h2
  have hn' : (n : ℝ) ≠ 0 := by positivity
  have : ∀ m : ℕ, 2 * sin (π * a / (2 * n)) * ∑ k ∈ range m, cos (π * (k + 1 / 2) * a / n) = sin (π * m * a / n) := by
    intro m
    induction m with
    | zero => simp
    | succ m ih =>
      rw [sum_range_succ, mul_add, ih]
      rw [show π * ((m + 1 : ℕ) : ℝ) * a / n = π * (m + 1 / 2) * a / n + π * a / (2 * n) by push_cast; field_simp; ring,
        show π * (m : ℝ) * a / n = π * (m + 1 / 2) * a / n - π * a / (2 * n) by field_simp; ring, sin_add, sin_sub]
      ring
  have h := this n
  rw [show π * (n : ℝ) * a / n = a * π by field_simp, sin_int_mul_pi] at h
  exact (mul_eq_zero.1 h).resolve_left (by positivity)

theorem cos_int_pi (a : ℤ) : cos (a * π) = (-1) ^ a := Real.cos_int_mul_pi a

/-- `1 + 2 ∑ cos (π k a / n)` over `0 < k < n` -/
theorem sumD {n : ℕ} (hn : 0 < n) {a : ℤ} (h0 : a ≠ 0) (h1 : a < 2 * n) (h2 : -(2 * n : ℤ) < a) :
    ∑ k ∈ range n, (if k = 0 then 1 else 2) * cos (π * k * a / n) = - cos (a * π) := by
  have hs := sin_ne hn h0 h1 h2
  have hn' : (n : ℝ) ≠ 0 := by positivity
  have : ∀ m : ℕ, sin (π * a / (2 * n)) * ∑ k ∈ range (m + 1), (if k = 0 then 1 else 2) * cos (π * k * a / n) = sin (π * (m + 1 / 2) * a / n) := by
    intro m
    induction m with
    | zero => simp; congr 1; field_simp
    | succ m ih =>
      rw [sum_range_succ, mul_add, ih, if_neg (by omega)]
      rw [show π * (((m + 1 : ℕ) : ℝ) + 1 / 2) * a / n = π * ((m + 1 : ℕ) : ℝ) * a / n + π * a / (2 * n) by push_cast; field_simp,
        show π * ((m : ℝ) + 1 / 2) * a / n = π * ((m + 1 : ℕ) : ℝ) * a / n - π * a / (2 * n) by push_cast; field_simp; ring, sin_add, sin_sub]
      ring
  obtain ⟨m, rfl⟩ : ∃ m, n = m + 1 := ⟨n - 1, by omega⟩
  have h := this m
  rw [show π * ((m : ℝ) + 1 / 2) * a / ((m + 1 : ℕ) : ℝ) = a * π - π * a / (2 * ((m + 1 : ℕ) : ℝ)) by push_cast at hn' ⊢; field_simp; ring, sin_sub, sin_int_mul_pi, zero_mul, zero_sub] at h
  have : sin (π * a / (2 * ((m + 1 : ℕ) : ℝ))) * (∑ k ∈ range (m + 1), (if k = 0 then 1 else 2) * cos (π * k * a / ((m + 1 : ℕ) : ℝ)) + cos (a * π)) = 0 := by
    rw [mul_add, h]; ring
  have := (mul_eq_zero.1 this).resolve_left hs
  linarith

theorem sumD0 {n : ℕ} (hn : 0 < n) : ∑ k ∈ range n, (if k = 0 then (1 : ℝ) else 2) = 2 * n - 1 := by
  obtain ⟨m, rfl⟩ : ∃ m, n = m + 1 := ⟨n - 1, by omega⟩
  rw [sum_range_succ']
  simp
  ring

theorem valF {n : ℕ} (hn : 0 < n) {a : ℤ} (h1 : a < 2 * n) (h2 : -(2 * n : ℤ) < a) :
    ∑ k ∈ range n, cos (π * (k + 1 / 2) * a / n) = if a = 0 then (n : ℝ) else 0 := by
  split_ifs with h
  · subst h; simp
  · exact sumF hn h h1 h2

theorem valD {n : ℕ} (hn : 0 < n) {a : ℤ} (h1 : a < 2 * n) (h2 : -(2 * n : ℤ) < a) :
    ∑ k ∈ range n, (if k = 0 then 1 else 2) * cos (π * k * a / n) = (if a = 0 then 2 * (n : ℝ) else 0) - cos (a * π) := by
  split_ifs with h
  · subst h; simp only [Int.cast_zero, mul_zero, zero_div, cos_zero, mul_one, zero_mul]; exact sumD0 hn
  · rw [sumD hn h h1 h2]; ring

theorem valF2 {n : ℕ} (hn : 0 < n) : ∑ k ∈ range n, cos (π * (k + 1 / 2) * ((2 * n : ℤ) : ℝ) / n) = -(n : ℝ) := by
  have hn' : (n : ℝ) ≠ 0 := by positivity
  have : ∀ k ∈ range n, cos (π * (k + 1 / 2) * ((2 * n : ℤ) : ℝ) / n) = -1 := by
    intro k _
    rw [show π * ((k : ℝ) + 1 / 2) * ((2 * n : ℤ) : ℝ) / n = π + k * (2 * π) by push_cast; field_simp; ring, cos_add_nat_mul_two_pi, cos_pi]
  rw [sum_congr rfl this]; simp

theorem cos_mul_cos (a b : ℝ) : 2 * cos a * cos b = cos (a - b) + cos (a + b) := by rw [cos_sub, cos_add]; ring
theorem sin_mul_sin (a b : ℝ) : 2 * sin a * sin b = cos (a - b) - cos (a + b) := by rw [cos_sub, cos_add]; ring

theorem par1 (j m : ℕ) : cos (((j + m + 1 : ℤ) : ℝ) * π) = - cos (((j - m : ℤ) : ℝ) * π) := by
  rw [show ((j + m + 1 : ℤ) : ℝ) * π = ((j - m : ℤ) : ℝ) * π + m * (2 * π) + π by push_cast; ring, cos_add_pi, cos_add_nat_mul_two_pi]
theorem par2 (j m : ℕ) : cos (((j + m : ℤ) : ℝ) * π) = cos (((j - m : ℤ) : ℝ) * π) := by
  rw [show ((j + m : ℤ) : ℝ) * π = ((j - m : ℤ) : ℝ) * π + m * (2 * π) by push_cast; ring, cos_add_nat_mul_two_pi]

variable {n j m : ℕ}

theorem redft10 (hj : j < n) (hm : m < n) : ∑ k ∈ range n, rK .REDFT01 n k m * rK .REDFT10 n j k = if j = m then 2 * (n : ℝ) else 0 := by
  have h1 := valD (n := n) (by omega) (a := (j : ℤ) - m) (by omega) (by omega)
  have h2 := valD (n := n) (by omega) (a := (j : ℤ) + m + 1) (by omega) (by omega)
  rw [par1, if_neg (by omega)] at h2
  have : (if j = m then 2 * (n : ℝ) else 0) = (if (j : ℤ) - m = 0 then 2 * (n : ℝ) else 0) := by congr 1; rw [eq_iff_iff]; omega
  rw [this, show (if (j : ℤ) - m = 0 then 2 * (n : ℝ) else 0) = ((if (j : ℤ) - m = 0 then 2 * (n : ℝ) else 0) - cos (((j - m : ℤ) : ℝ) * π)) + (0 - - cos (((j - m : ℤ) : ℝ) * π)) by ring, ← h1, ← h2, ← sum_add_distrib]
  refine sum_congr rfl fun k _ => ?_
  have e : rK .REDFT01 n k m = (if k = 0 then 1 else 2) * cos (π * k * (m + 1 / 2) / n) := by
    simp only [rK]; split_ifs with h
    · subst h; simp
    · rfl
  rw [e, ← mul_add, mul_assoc]
  congr 1
  simp only [rK]
  rw [mul_comm, cos_mul_cos]
  congr 2 <;> (push_cast; ring)

theorem redft01 (hj : j < n) (hm : m < n) : ∑ k ∈ range n, rK .REDFT10 n k m * rK .REDFT01 n j k = if j = m then 2 * (n : ℝ) else 0 := by
  have h1 := valF (n := n) (by omega) (a := (j : ℤ) - m) (by omega) (by omega)
  have h2 := valF (n := n) (by omega) (a := (j : ℤ) + m) (by omega) (by omega)
  have e : ∀ k, rK .REDFT01 n j k = (if j = 0 then 1 else 2) * cos (π * (k + 1 / 2) * j / n) := by
    intro k
    simp only [rK]; split_ifs with h
    · subst h; simp
    · congr 2; ring
  have : ∑ k ∈ range n, rK .REDFT10 n k m * rK .REDFT01 n j k = (if j = 0 then 1 else 2) *
      ((if (j : ℤ) - m = 0 then (n : ℝ) else 0) + (if (j : ℤ) + m = 0 then (n : ℝ) else 0)) := by
    rw [← h1, ← h2, ← sum_add_distrib, mul_sum]
    refine sum_congr rfl fun k _ => ?_
    rw [e, mul_left_comm]
    congr 1
    simp only [rK]
    rw [mul_right_comm, cos_mul_cos]
    congr 2 <;> (push_cast; ring)
  rw [this]
  by_cases h : j = m
  · subst h
    by_cases h0 : j = 0
    · subst h0; simp; ring
    · rw [if_neg h0, if_pos (by omega), if_neg (by omega), if_pos rfl]; ring
  · rw [if_neg (show ¬ (j : ℤ) - m = 0 by omega), if_neg (show ¬ (j : ℤ) + m = 0 by omega), if_neg h]; ring

theorem redft11 (hj : j < n) (hm : m < n) : ∑ k ∈ range n, rK .REDFT11 n k m * rK .REDFT11 n j k = if j = m then 2 * (n : ℝ) else 0 := by
  have h1 := valF (n := n) (by omega) (a := (j : ℤ) - m) (by omega) (by omega)
  have h2 := valF (n := n) (by omega) (a := (j : ℤ) + m + 1) (by omega) (by omega)
  rw [if_neg (by omega)] at h2
  have : (if j = m then 2 * (n : ℝ) else 0) = 2 * ((if (j : ℤ) - m = 0 then (n : ℝ) else 0) + 0) := by
    by_cases h : j = m
    · rw [if_pos h, if_pos (by omega)]; ring
    · rw [if_neg h, if_neg (by omega)]; ring
  rw [this, ← h1, ← h2, ← sum_add_distrib, mul_sum]
  refine sum_congr rfl fun k _ => ?_
  simp only [rK]
  rw [show π * ((k : ℝ) + 1 / 2) * (((j : ℤ) - m : ℤ) : ℝ) / n = π * (j + 1 / 2) * (k + 1 / 2) / n - π * (k + 1 / 2) * (m + 1 / 2) / n by push_cast; ring,
    show π * ((k : ℝ) + 1 / 2) * (((j : ℤ) + m + 1 : ℤ) : ℝ) / n = π * (j + 1 / 2) * (k + 1 / 2) / n + π * (k + 1 / 2) * (m + 1 / 2) / n by push_cast; ring, ← cos_mul_cos]
  ring

theorem rodft11 (hj : j < n) (hm : m < n) : ∑ k ∈ range n, rK .RODFT11 n k m * rK .RODFT11 n j k = if j = m then 2 * (n : ℝ) else 0 := by
  have h1 := valF (n := n) (by omega) (a := (j : ℤ) - m) (by omega) (by omega)
  have h2 := valF (n := n) (by omega) (a := (j : ℤ) + m + 1) (by omega) (by omega)
  rw [if_neg (by omega)] at h2
  have : (if j = m then 2 * (n : ℝ) else 0) = 2 * ((if (j : ℤ) - m = 0 then (n : ℝ) else 0) - 0) := by
    by_cases h : j = m
    · rw [if_pos h, if_pos (by omega)]; ring
    · rw [if_neg h, if_neg (by omega)]; ring
  rw [this, ← h1, ← h2, ← sum_sub_distrib, mul_sum]
  refine sum_congr rfl fun k _ => ?_
  simp only [rK]
  rw [show π * ((k : ℝ) + 1 / 2) * (((j : ℤ) - m : ℤ) : ℝ) / n = π * (j + 1 / 2) * (k + 1 / 2) / n - π * (k + 1 / 2) * (m + 1 / 2) / n by push_cast; ring,
    show π * ((k : ℝ) + 1 / 2) * (((j : ℤ) + m + 1 : ℤ) : ℝ) / n = π * (j + 1 / 2) * (k + 1 / 2) / n + π * (k + 1 / 2) * (m + 1 / 2) / n by push_cast; ring, ← sin_mul_sin]
  ring

theorem rodft01 (hj : j < n) (hm : m < n) : ∑ k ∈ range n, rK .RODFT10 n k m * rK .RODFT01 n j k = if j = m then 2 * (n : ℝ) else 0 := by
  have hn' : (n : ℝ) ≠ 0 := by have : 0 < n := by omega
                               positivity
  have h1 := valF (n := n) (by omega) (a := (j : ℤ) - m) (by omega) (by omega)
  have h2 : ∑ k ∈ range n, cos (π * (k + 1 / 2) * (((j : ℤ) + m + 2 : ℤ) : ℝ) / n) = if j + m + 2 = 2 * n then - (n : ℝ) else 0 := by
    split_ifs with h
    · rw [show ((j : ℤ) + m + 2) = 2 * n by omega]; exact valF2 (by omega)
    · rw [valF (by omega) (by omega) (by omega), if_neg (by omega)]
  have e : ∀ k, rK .RODFT01 n j k = (if j + 1 = n then 1 else 2) * sin (π * (k + 1 / 2) * (j + 1) / n) := by
    intro k
    simp only [rK]; split_ifs with h
    · have h' : (j : ℝ) + 1 = n := by exact_mod_cast h
      rw [h', one_mul, show π * ((k : ℝ) + 1 / 2) * n / n = π / 2 + k * π by field_simp; ring, sin_add_nat_mul_pi, sin_pi_div_two, mul_one]
    · congr 2; ring
  have : ∑ k ∈ range n, rK .RODFT10 n k m * rK .RODFT01 n j k = (if j + 1 = n then 1 else 2) *
      ((if (j : ℤ) - m = 0 then (n : ℝ) else 0) - (if j + m + 2 = 2 * n then - (n : ℝ) else 0)) := by
    rw [← h1, ← h2, ← sum_sub_distrib, mul_sum]
    refine sum_congr rfl fun k _ => ?_
    rw [e, mul_left_comm]
    congr 1
    simp only [rK]
    rw [mul_right_comm, sin_mul_sin]
    congr 2 <;> (push_cast; ring)
  rw [this]
  by_cases h : j = m
  · subst h
    by_cases h0 : j + 1 = n
    · rw [if_pos h0, if_pos (by omega), if_pos (by omega), if_pos rfl]; ring
    · rw [if_neg h0, if_pos (by omega), if_neg (by omega), if_pos rfl]; ring
  · rw [if_neg (show ¬ (j : ℤ) - m = 0 by omega), if_neg (show ¬ j + m + 2 = 2 * n by omega), if_neg h]; ring

/-- the sum of `sumD` taken over `0 < k ≤ n` with weight 1 at `k = n` -/
theorem valJ {n : ℕ} (hn : 0 < n) {a : ℤ} (h1 : a < 2 * n) (h2 : -(2 * n : ℤ) < a) :
    ∑ k ∈ range n, (if k + 1 = n then 1 else 2) * cos (π * (k + 1) * a / n) = (if a = 0 then 2 * (n : ℝ) else 0) - 1 := by
  have hn' : (n : ℝ) ≠ 0 := by positivity
  have h := valD hn h1 h2
  obtain ⟨p, rfl⟩ : ∃ p, n = p + 1 := ⟨n - 1, by omega⟩
  rw [sum_range_succ'] at h
  rw [sum_range_succ, if_pos rfl]
  have e : ∑ k ∈ range p, (if k + 1 = p + 1 then 1 else 2) * cos (π * (k + 1) * a / ((p + 1 : ℕ) : ℝ)) =
      ∑ k ∈ range p, (if k + 1 = 0 then 1 else 2) * cos (π * ((k + 1 : ℕ) : ℝ) * a / ((p + 1 : ℕ) : ℝ)) := by
    refine sum_congr rfl fun k hk => ?_
    have := mem_range.1 hk
    rw [if_neg (by omega), if_neg (by omega)]; push_cast; ring
  rw [e]
  have e2 : π * ((p : ℝ) + 1) * a / ((p + 1 : ℕ) : ℝ) = a * π := by push_cast at hn' ⊢; field_simp
  rw [e2]
  simp only [if_true, Nat.cast_zero, mul_zero, zero_mul, zero_div, cos_zero, mul_one] at h
  linarith

theorem rodft10 (hj : j < n) (hm : m < n) : ∑ k ∈ range n, rK .RODFT01 n k m * rK .RODFT10 n j k = if j = m then 2 * (n : ℝ) else 0 := by
  have hn' : (n : ℝ) ≠ 0 := by have : 0 < n := by omega
                               positivity
  have h1 := valJ (n := n) (by omega) (a := (j : ℤ) - m) (by omega) (by omega)
  have h2 := valJ (n := n) (by omega) (a := (j : ℤ) + m + 1) (by omega) (by omega)
  rw [if_neg (by omega)] at h2
  have : (if j = m then 2 * (n : ℝ) else 0) = ((if (j : ℤ) - m = 0 then 2 * (n : ℝ) else 0) - 1) - (0 - 1) := by
    by_cases h : j = m
    · rw [if_pos h, if_pos (by omega)]; ring
    · rw [if_neg h, if_neg (by omega)]; ring
  rw [this, ← h1, ← h2, ← sum_sub_distrib]
  refine sum_congr rfl fun k _ => ?_
  have e : rK .RODFT01 n k m = (if k + 1 = n then 1 else 2) * sin (π * (k + 1) * (m + 1 / 2) / n) := by
    simp only [rK]; split_ifs with h
    · have h' : (k : ℝ) + 1 = n := by exact_mod_cast h
      rw [h', one_mul, show π * (n : ℝ) * (m + 1 / 2) / n = π / 2 + m * π by field_simp; ring, sin_add_nat_mul_pi, sin_pi_div_two, mul_one]
    · rfl
  rw [e, ← mul_sub, mul_assoc]
  congr 1
  simp only [rK]
  rw [mul_comm, sin_mul_sin]
  congr 2 <;> (push_cast; ring)

theorem rodft00 (hj : j < n) (hm : m < n) : ∑ k ∈ range n, rK .RODFT00 n k m * rK .RODFT00 n j k = if j = m then 2 * ((n : ℝ) + 1) else 0 := by
  have h1 := valD (n := n + 1) (by omega) (a := (j : ℤ) - m) (by omega) (by omega)
  have h2 := valD (n := n + 1) (by omega) (a := (j : ℤ) + m + 2) (by omega) (by omega)
  rw [if_neg (by omega)] at h2
  have par : cos ((((j : ℤ) + m + 2 : ℤ) : ℝ) * π) = cos (((j - m : ℤ) : ℝ) * π) := by
    rw [show (((j : ℤ) + m + 2 : ℤ) : ℝ) * π = ((j - m : ℤ) : ℝ) * π + ((m + 1 : ℕ) : ℝ) * (2 * π) by push_cast; ring, cos_add_nat_mul_two_pi]
  rw [par, sum_range_succ'] at h2
  rw [sum_range_succ'] at h1
  have : (if j = m then 2 * ((n : ℝ) + 1) else 0) = (if (j : ℤ) - m = 0 then 2 * ((n + 1 : ℕ) : ℝ) else 0) := by
    by_cases h : j = m
    · rw [if_pos h, if_pos (by omega)]; push_cast; ring
    · rw [if_neg h, if_neg (by omega)]
  have hd : ∑ k ∈ range n, rK .RODFT00 n k m * rK .RODFT00 n j k =
      ∑ k ∈ range n, (if k + 1 = 0 then 1 else 2) * cos (π * ((k + 1 : ℕ) : ℝ) * (((j : ℤ) - m : ℤ) : ℝ) / ((n + 1 : ℕ) : ℝ)) -
      ∑ k ∈ range n, (if k + 1 = 0 then 1 else 2) * cos (π * ((k + 1 : ℕ) : ℝ) * (((j : ℤ) + m + 2 : ℤ) : ℝ) / ((n + 1 : ℕ) : ℝ)) := by
    rw [← sum_sub_distrib]
    refine sum_congr rfl fun k _ => ?_
    simp only [rK, if_neg (show ¬ k + 1 = 0 by omega)]
    rw [show π * ((k + 1 : ℕ) : ℝ) * (((j : ℤ) - m : ℤ) : ℝ) / ((n + 1 : ℕ) : ℝ) = π * (j + 1) * (k + 1) / (n + 1) - π * (k + 1) * (m + 1) / (n + 1) by push_cast; ring,
      show π * ((k + 1 : ℕ) : ℝ) * (((j : ℤ) + m + 2 : ℤ) : ℝ) / ((n + 1 : ℕ) : ℝ) = π * (j + 1) * (k + 1) / (n + 1) + π * (k + 1) * (m + 1) / (n + 1) by push_cast; ring, ← mul_sub, ← sin_mul_sin]
    ring
  rw [hd, this]
  simp only [if_true, Nat.cast_zero, mul_zero, zero_mul, zero_div, cos_zero, mul_one] at h1 h2
  linarith

theorem redft00 (h2n : 2 ≤ n) (hj : j < n) (hm : m < n) : ∑ k ∈ range n, rK .REDFT00 n k m * rK .REDFT00 n j k = if j = m then 2 * ((n : ℝ) - 1) else 0 := by
  obtain ⟨p, rfl⟩ : ∃ p, n = p + 1 := ⟨n - 1, by omega⟩
  have hp : 0 < p := by omega
  have hp' : (p : ℝ) ≠ 0 := by positivity
  have ec : ∀ a b : ℕ, rK .REDFT00 (p + 1) a b = (if a = 0 ∨ a = p then 1 else 2) * cos (π * a * b / p) := by
    intro a b
    simp only [rK, Nat.add_right_cancel_iff]
    rw [show (((p + 1 : ℕ) : ℝ) - 1) = p by push_cast; ring]
    by_cases h0 : a = 0
    · subst h0; simp
    · by_cases h1 : a = p
      · subst h1
        rw [if_neg h0, if_pos rfl, if_pos (Or.inr rfl), one_mul, show π * (a : ℝ) * b / a = b * π by field_simp, cos_nat_mul_pi]
      · rw [if_neg h0, if_neg h1, if_neg (by tauto)]
  have G : ∀ a : ℤ, a ≤ 2 * p → -(2 * p : ℤ) < a → ∑ k ∈ range (p + 1), (if k = 0 ∨ k = p then 1 else 2) * cos (π * k * a / p) = if a = 0 ∨ a = 2 * p then 2 * (p : ℝ) else 0 := by
    intro a h1 h2
    rw [sum_range_succ, if_pos (Or.inr rfl), one_mul, show π * (p : ℝ) * a / p = a * π by field_simp]
    have e : ∑ k ∈ range p, (if k = 0 ∨ k = p then 1 else 2) * cos (π * k * a / p) = ∑ k ∈ range p, (if k = 0 then 1 else 2) * cos (π * k * a / p) := by
      refine sum_congr rfl fun k hk => ?_
      have := mem_range.1 hk
      congr 2; rw [eq_iff_iff]; omega
    rw [e]
    by_cases h : a = 2 * p
    · subst h
      rw [if_pos (Or.inr rfl)]
      have : ∀ k ∈ range p, (if k = 0 then 1 else 2) * cos (π * k * ((2 * p : ℤ) : ℝ) / p) = (if k = 0 then 1 else 2 : ℝ) := by
        intro k _
        rw [show π * (k : ℝ) * ((2 * p : ℤ) : ℝ) / p = k * (2 * π) by push_cast; field_simp, cos_nat_mul_two_pi, mul_one]
      rw [sum_congr rfl this, sumD0 hp, show ((2 * p : ℤ) : ℝ) * π = p * (2 * π) by push_cast; ring, cos_nat_mul_two_pi]; ring
    · rw [valD hp (by omega) h2]
      by_cases h0 : a = 0
      · rw [if_pos h0, if_pos (Or.inl h0)]; ring
      · rw [if_neg h0, if_neg (by tauto)]; ring
  have h1 := G ((j : ℤ) - m) (by omega) (by omega)
  have h2 := G ((j : ℤ) + m) (by omega) (by omega)
  have : 2 * ∑ k ∈ range (p + 1), rK .REDFT00 (p + 1) k m * rK .REDFT00 (p + 1) j k = (if j = 0 ∨ j = p then 1 else 2) *
      ((if (j : ℤ) - m = 0 ∨ (j : ℤ) - m = 2 * p then 2 * (p : ℝ) else 0) + (if (j : ℤ) + m = 0 ∨ (j : ℤ) + m = 2 * p then 2 * (p : ℝ) else 0)) := by
    rw [← h1, ← h2, ← sum_add_distrib, mul_sum, mul_sum]
    refine sum_congr rfl fun k _ => ?_
    rw [ec, ec, ← mul_add, show π * (k : ℝ) * (((j : ℤ) - m : ℤ) : ℝ) / p = π * j * k / p - π * k * m / p by push_cast; ring,
      show π * (k : ℝ) * (((j : ℤ) + m : ℤ) : ℝ) / p = π * j * k / p + π * k * m / p by push_cast; ring, ← cos_mul_cos]
    ring
  rw [show (((p + 1 : ℕ) : ℝ) - 1) = p by push_cast; ring]
  by_cases h : j = m
  · subst h
    rw [if_pos (show (j : ℤ) - j = 0 ∨ (j : ℤ) - j = 2 * p by omega)] at this
    rw [if_pos rfl]
    by_cases h0 : j = 0 ∨ j = p
    · rw [if_pos h0, if_pos (show (j : ℤ) + j = 0 ∨ (j : ℤ) + j = 2 * p by omega)] at this
      linarith
    · rw [if_neg h0, if_neg (show ¬ ((j : ℤ) + j = 0 ∨ (j : ℤ) + j = 2 * p) by omega)] at this
      linarith
  · rw [if_neg (show ¬ ((j : ℤ) - m = 0 ∨ (j : ℤ) - m = 2 * p) by omega), if_neg (show ¬ ((j : ℤ) + m = 0 ∨ (j : ℤ) + m = 2 * p) by omega)] at this
    rw [if_neg h]
    linarith

theorem sumC {n : ℕ} (hn : 0 < n) {a : ℤ} (h0 : a ≠ 0) (h1 : a < n) (h2 : -(n : ℤ) < a) : ∑ k ∈ range n, cos (2 * π * k * a / n) = 0 := by
  have hs := sin_ne hn (a := 2 * a) (by omega) (by omega) (by omega)
  have hn' : (n : ℝ) ≠ 0 := by positivity
  have e : π * ((2 * a : ℤ) : ℝ) / (2 * n) = π * a / n := by push_cast; field_simp
  rw [e] at hs
  have : ∀ m : ℕ, 2 * sin (π * a / n) * ∑ k ∈ range m, cos (2 * π * k * a / n) = sin (2 * π * m * a / n - π * a / n) + sin (π * a / n) := by
    intro m
    induction m with
    | zero => simp
    | succ m ih =>
      rw [sum_range_succ, mul_add, ih]
      rw [show 2 * π * ((m + 1 : ℕ) : ℝ) * a / n - π * a / n = 2 * π * m * a / n + π * a / n by push_cast; ring, sin_add, sin_sub]
      ring
  have h := this n
  rw [show 2 * π * (n : ℝ) * a / n - π * a / n = -(π * a / n) + a * (2 * π) by field_simp; ring, sin_add_int_mul_two_pi, sin_neg, neg_add_cancel] at h
  exact (mul_eq_zero.1 h).resolve_left (by positivity)

theorem sumS {n : ℕ} (hn : 0 < n) (a : ℤ) : ∑ k ∈ range n, sin (2 * π * k * a / n) = 0 := by
  have hn' : (n : ℝ) ≠ 0 := by positivity
  by_cases hs : sin (π * a / n) = 0
  · obtain ⟨m, hm⟩ := Real.sin_eq_zero_iff.1 hs
    refine sum_eq_zero fun k _ => ?_
    rw [show 2 * π * (k : ℝ) * a / n = ((2 * k * m : ℤ) : ℝ) * π by push_cast; linear_combination (-2 * (k : ℝ)) * hm, sin_int_mul_pi]
  have : ∀ m : ℕ, 2 * sin (π * a / n) * ∑ k ∈ range m, sin (2 * π * k * a / n) = cos (π * a / n) - cos (2 * π * m * a / n - π * a / n) := by
    intro m
    induction m with
    | zero => simp
    | succ m ih =>
      rw [sum_range_succ, mul_add, ih]
      rw [show 2 * π * ((m + 1 : ℕ) : ℝ) * a / n - π * a / n = 2 * π * m * a / n + π * a / n by push_cast; ring, cos_add, cos_sub]
      ring
  have h := this n
  rw [show 2 * π * (n : ℝ) * a / n - π * a / n = -(π * a / n) + a * (2 * π) by field_simp; ring, cos_add_int_mul_two_pi, cos_neg, sub_self] at h
  exact (mul_eq_zero.1 h).resolve_left (by positivity)

theorem dht (hj : j < n) (hm : m < n) : ∑ k ∈ range n, rK .DHT n k m * rK .DHT n j k = if j = m then (n : ℝ) else 0 := by
  have hn : 0 < n := by omega
  have S : ∑ k ∈ range n, cos (2 * π * k * ((j - m : ℤ) : ℝ) / n) = if j = m then (n : ℝ) else 0 := by
    split_ifs with h
    · subst h; simp
    · exact sumC hn (by omega) (by omega) (by omega)
  rw [← S, ← add_zero (∑ k ∈ range n, cos _), ← sumS hn (j + m : ℤ), ← sum_add_distrib]
  refine sum_congr rfl fun k _ => ?_
  simp only [rK]
  rw [show 2 * π * (k : ℝ) * ((j - m : ℤ) : ℝ) / n = 2 * π * j * k / n - 2 * π * k * m / n by push_cast; ring,
    show 2 * π * (k : ℝ) * ((j + m : ℤ) : ℝ) / n = 2 * π * j * k / n + 2 * π * k * m / n by push_cast; ring, cos_sub, sin_add]
  ring

theorem dht_dht (hn : 0 < n) (x : ℕ → ℝ) (hm : m < n) : ∑ k ∈ range n, rK .DHT n k m * ∑ j ∈ range n, rK .DHT n j k * x j = n * x m := by
  simp only [mul_sum, ← mul_assoc]
  rw [sum_comm]
  simp only [← sum_mul]
  rw [sum_congr rfl fun j hj => by rw [dht (mem_range.1 hj) hm]]
  simp [hm]

end FFTW.R2rInv
