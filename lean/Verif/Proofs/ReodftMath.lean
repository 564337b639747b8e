import Verif.Proofs.Real1
import Mathlib.Analysis.SpecialFunctions.Trigonometric.Basic

/-! # Trigonometric sums behind reodft/ -/

namespace FFTW.Spec
open Real Finset

theorem r2hc_lo {N m : ℕ} (j : ℕ) (h : 2 * m ≤ N) : rK .R2HC00 N j m = cos (2 * π * j * m / N) := by
  show r2hcK 0 0 N j m = _
  rw [r2hcK, if_pos (by omega)]
  congr 1; push_cast; ring

theorem r2hc_hi {N m : ℕ} (j : ℕ) (h0 : 0 < m) (h : 2 * m < N) : rK .R2HC00 N j (N - m) = - sin (2 * π * j * m / N) := by
  show r2hcK 0 0 N j (N - m) = _
  rw [r2hcK, if_neg (by omega), show N - 0 - (N - m) = m by omega]
  congr 2; push_cast; ring

/-- `cos` and `sin` of differences from multiples of `2π` and from odd multiples of `π/2` -/
theorem cos_nat_two_pi_sub (m : ℕ) (x : ℝ) : cos (m * (2 * π) - x) = cos x := by
  exact cos_nat_mul_two_pi_sub x m
theorem sin_nat_two_pi_sub (m : ℕ) (x : ℝ) : sin (m * (2 * π) - x) = - sin x := by
  rw [← sin_nat_mul_two_pi_sub x m]
theorem cos_nat_pi (m : ℕ) : cos (m * π) = (-1) ^ m := by simpa using Real.cos_nat_mul_pi m
theorem cos_half_sub (m : ℕ) (x : ℝ) : cos (π * (m + 1 / 2) - x) = (-1) ^ m * sin x := by
  rw [show π * ((m : ℝ) + 1 / 2) - x = (π / 2 - x) + m * π by ring, cos_add_nat_mul_pi, cos_pi_div_two_sub]
theorem sin_half_sub (m : ℕ) (x : ℝ) : sin (π * (m + 1 / 2) - x) = (-1) ^ m * cos x := by
  rw [show π * ((m : ℝ) + 1 / 2) - x = (π / 2 - x) + m * π by ring, sin_add_nat_mul_pi, sin_pi_div_two_sub]

/-- a sum over twice the length, folded -/
theorem sum_fold (n : ℕ) (hn : 0 < n) (f : ℕ → ℝ) :
    ∑ j ∈ range (2 * n), f j = f 0 + f n + ∑ i ∈ range (n - 1), (f (i + 1) + f (2 * n - (i + 1))) := by
  obtain ⟨m, rfl⟩ : ∃ m, n = m + 1 := ⟨n - 1, by omega⟩
  rw [two_mul, sum_range_add, sum_range_succ' f m, sum_range_succ' (fun i => f (m + 1 + i)) m, sum_add_distrib,
    ← sum_range_reflect (fun i => f (m + 1 + (i + 1))) m]
  have : ∑ j ∈ range m, f (m + 1 + (m - 1 - j + 1)) = ∑ i ∈ range (m + 1 - 1), f (m + 1 + (m + 1) - (i + 1)) := by
    refine sum_congr rfl fun i hi => ?_
    have := mem_range.1 hi
    congr 1; omega
  rw [this]
  simp only [Nat.add_sub_cancel, add_zero]
  ring

theorem redft00_math {n : ℕ} (hn : 0 < n) (x y : ℕ → ℝ)
    (hy : ∀ m < 2 * n, y m = ∑ j ∈ range (2 * n), rK .R2HC00 (2 * n) j m * (if j ≤ n then x j else x (2 * n - j))) {k : ℕ} (hk : k < n + 1) :
    y k = ∑ j ∈ range (n + 1), rK .REDFT00 (n + 1) j k * x j := by
  have hn' : (n : ℝ) ≠ 0 := by exact_mod_cast hn.ne'
  rw [hy k (by omega), sum_fold n hn]
  obtain ⟨m, rfl⟩ : ∃ m, n = m + 1 := ⟨n - 1, by omega⟩
  rw [sum_range_succ, sum_range_succ']
  have e0 : rK .REDFT00 (m + 1 + 1) 0 k = 1 := by simp [rK]
  have en : rK .REDFT00 (m + 1 + 1) (m + 1) k = (-1) ^ k := by simp [rK]
  have em : ∀ i < m, rK .REDFT00 (m + 1 + 1) (i + 1) k = 2 * cos (π * (i + 1) * k / (m + 1)) := by
    intro i hi
    show (if i + 1 = 0 then 1 else if i + 1 + 1 = m + 1 + 1 then (-1) ^ k else _) = _
    rw [if_neg (by omega), if_neg (by omega)]
    push_cast; congr 2; ring_nf
  have d0 : rK .R2HC00 (2 * (m + 1)) 0 k = 1 := by rw [r2hc_lo _ (by omega)]; simp
  have dn : rK .R2HC00 (2 * (m + 1)) (m + 1) k = (-1) ^ k := by
    rw [r2hc_lo _ (by omega), ← cos_nat_pi]; congr 1; field_simp; push_cast; ring
  have dm : ∀ i < m, rK .R2HC00 (2 * (m + 1)) (i + 1) k = cos (π * (i + 1) * k / (m + 1)) := by
    intro i hi
    rw [r2hc_lo _ (by omega)]; congr 1; push_cast; field_simp
  have dm' : ∀ i < m, rK .R2HC00 (2 * (m + 1)) (2 * (m + 1) - (i + 1)) k = cos (π * (i + 1) * k / (m + 1)) := by
    intro i hi
    rw [r2hc_lo _ (by omega), ← cos_nat_two_pi_sub k]; congr 1
    rw [Nat.cast_sub (by omega)]; push_cast at hn' ⊢; field_simp; ring
  rw [e0, en, d0, dn]
  have : ∑ i ∈ range (m + 1 - 1), (rK .R2HC00 (2 * (m + 1)) (i + 1) k * (if i + 1 ≤ m + 1 then x (i + 1) else x (2 * (m + 1) - (i + 1))) +
      rK .R2HC00 (2 * (m + 1)) (2 * (m + 1) - (i + 1)) k * (if 2 * (m + 1) - (i + 1) ≤ m + 1 then x (2 * (m + 1) - (i + 1)) else x (2 * (m + 1) - (2 * (m + 1) - (i + 1))))) =
      ∑ i ∈ range m, rK .REDFT00 (m + 1 + 1) (i + 1) k * x (i + 1) := by
    refine sum_congr rfl fun i hi => ?_
    have hi := mem_range.1 hi
    have hi : i < m := by omega
    rw [dm i hi, dm' i hi, em i hi, if_pos (by omega), if_neg (by omega), show 2 * (m + 1) - (2 * (m + 1) - (i + 1)) = i + 1 by omega]
    ring
  rw [this, if_pos (by omega), if_pos (by omega)]
  ring

theorem rodft00_math {n : ℕ} (x y : ℕ → ℝ)
    (hy : ∀ m < 2 * (n + 1), y m = ∑ j ∈ range (2 * (n + 1)), rK .R2HC00 (2 * (n + 1)) j m *
      (if j = 0 ∨ j = n + 1 then 0 else if j ≤ n then - x (j - 1) else x (2 * (n + 1) - j - 1))) {k : ℕ} (hk : k < n) :
    y (2 * (n + 1) - 1 - k) = ∑ j ∈ range n, rK .RODFT00 n j k * x j := by
  have hn' : ((n : ℝ) + 1) ≠ 0 := by positivity
  rw [show 2 * (n + 1) - 1 - k = 2 * (n + 1) - (k + 1) by omega, hy _ (by omega), sum_fold (n + 1) (by omega)]
  rw [if_pos (by omega), if_pos (by omega)]
  simp only [mul_zero, zero_add, Nat.add_sub_cancel]
  refine sum_congr rfl fun i hi => ?_
  have hi := mem_range.1 hi
  rw [if_neg (by omega), if_pos (by omega), if_neg (by omega), if_neg (by omega), r2hc_hi _ (by omega) (by omega), r2hc_hi _ (by omega) (by omega),
    show 2 * (n + 1) - (2 * (n + 1) - (i + 1)) - 1 = i by omega]
  have e1 : sin (2 * π * ((i + 1 : ℕ) : ℝ) * ((k + 1 : ℕ) : ℝ) / ((2 * (n + 1) : ℕ) : ℝ)) = sin (π * (i + 1) * (k + 1) / (n + 1)) := by
    congr 1; push_cast; field_simp
  have e2 : sin (2 * π * ((2 * (n + 1) - (i + 1) : ℕ) : ℝ) * ((k + 1 : ℕ) : ℝ) / ((2 * (n + 1) : ℕ) : ℝ)) = - sin (π * (i + 1) * (k + 1) / (n + 1)) := by
    rw [← sin_nat_two_pi_sub (k + 1)]
    congr 1; rw [Nat.cast_sub (by omega)]; push_cast; field_simp
  rw [e1, e2]
  show _ = 2 * sin (π * (i + 1) * (k + 1) / (n + 1)) * x i
  ring

/-! ### reodft010e-r2hc -/

/-- the order in which `re10` reads its input -/
def perm10 (n j : ℕ) : ℕ := if 2 * j < n then 2 * j else 2 * (n - j) - 1

theorem sum_perm10 (n : ℕ) (f : ℕ → ℝ) : ∑ l ∈ range n, f l = ∑ j ∈ range n, f (perm10 n j) := by
  symm
  refine sum_nbij' (perm10 n) (fun l => if l % 2 = 0 then l / 2 else n - (l + 1) / 2) ?_ ?_ ?_ ?_ (fun _ _ => rfl)
  · intro j hj; have := mem_range.1 hj; rw [mem_range, perm10]; split <;> omega
  · intro j hj; have := mem_range.1 hj; rw [mem_range]; split <;> omega
  · intro j hj; have := mem_range.1 hj; rw [perm10]; split <;> split <;> omega
  · intro j hj; have := mem_range.1 hj; rw [perm10]; split <;> split <;> omega

/-- Z of re10 -/
noncomputable def z10 (n : ℕ) (y : ℕ → ℝ) (k : ℕ) : ℝ :=
  if k = 0 then 2 * y 0
  else if 2 * k < n then cos (π * k / (2 * n)) * (2 * y k) + sin (π * k / (2 * n)) * (2 * y (n - k))
  else if 2 * k = n then 2 * y k * cos (π * k / (2 * n))
  else sin (π * ((n - k : ℕ) : ℝ) / (2 * n)) * (2 * y (n - k)) - cos (π * ((n - k : ℕ) : ℝ) / (2 * n)) * (2 * y k)

theorem redft10_math {n : ℕ} (hn : 0 < n) (x y : ℕ → ℝ)
    (hy : ∀ m < n, y m = ∑ j ∈ range n, rK .R2HC00 n j m * x (perm10 n j)) {k : ℕ} (hk : k < n) :
    z10 n y k = ∑ j ∈ range n, rK .REDFT10 n j k * x j := by
  have hn' : (n : ℝ) ≠ 0 := by exact_mod_cast hn.ne'
  have lo : ∀ m, 2 * m ≤ n → m < n → y m = ∑ j ∈ range n, cos (2 * π * j * m / n) * x (perm10 n j) := by
    intro m hm hm'; rw [hy m hm']; exact sum_congr rfl fun j _ => by rw [r2hc_lo j hm]
  have hi : ∀ m, 0 < m → 2 * m < n → y (n - m) = ∑ j ∈ range n, - sin (2 * π * j * m / n) * x (perm10 n j) := by
    intro m h0 hm; rw [hy _ (by omega)]; exact sum_congr rfl fun j _ => by rw [r2hc_hi j h0 hm]
  -- kernel at the permuted index
  have kc : ∀ j < n, ∀ m : ℕ, cos (π * ((perm10 n j : ℕ) + 1 / 2) * m / n) = cos (2 * π * j * m / n + π * m / (2 * n)) := by
    intro j hj m
    rw [perm10]
    split
    · congr 1; push_cast; field_simp
    · rw [← cos_nat_two_pi_sub m (2 * π * j * m / n + π * m / (2 * n))]
      congr 1; rw [Nat.cast_sub (by omega), Nat.cast_mul, Nat.cast_sub (by omega)]; push_cast; field_simp; ring
  have ks : ∀ j < n, ∀ m : ℕ, m < n → cos (π * ((perm10 n j : ℕ) + 1 / 2) * (n - m : ℕ) / n) = sin (2 * π * j * m / n + π * m / (2 * n)) := by
    intro j hj m hm
    have e : π * (((perm10 n j : ℕ) : ℝ) + 1 / 2) * ((n - m : ℕ) : ℝ) / n = π * (((perm10 n j : ℕ) : ℝ) + 1 / 2) - π * (((perm10 n j : ℕ) : ℝ) + 1 / 2) * m / n := by
      rw [Nat.cast_sub hm.le]; field_simp
    rw [e, cos_half_sub]
    unfold perm10
    split
    · rw [Even.neg_one_pow ⟨j, by ring⟩, one_mul]
      congr 1; push_cast; field_simp
    · rw [Odd.neg_one_pow ⟨n - j - 1, by omega⟩, neg_one_mul, ← sin_nat_two_pi_sub m]
      congr 1; rw [Nat.cast_sub (by omega), Nat.cast_mul, Nat.cast_sub (by omega)]; push_cast; field_simp; ring
  rw [sum_perm10]
  unfold z10
  split_ifs with h0 h1 h2
  · subst h0
    rw [lo 0 (by omega) (by omega), mul_sum]
    refine sum_congr rfl fun j hj => ?_
    simp [rK]
  · rw [lo k (by omega) hk, hi k (by omega) h1, mul_sum, mul_sum, mul_sum, mul_sum, ← sum_add_distrib]
    refine sum_congr rfl fun j hj => ?_
    show _ = 2 * cos (π * ((perm10 n j : ℕ) + 1 / 2) * k / n) * _
    rw [kc j (mem_range.1 hj), cos_add]; ring
  · rw [lo k (by omega) hk, mul_sum, sum_mul]
    refine sum_congr rfl fun j hj => ?_
    show _ = 2 * cos (π * ((perm10 n j : ℕ) + 1 / 2) * k / n) * _
    have : sin (2 * π * j * k / n) = 0 := by
      rw [show 2 * π * (j : ℝ) * k / n = j * π by rw [← h2]; push_cast; have : (k : ℝ) ≠ 0 := by exact_mod_cast h0
                                                  field_simp]
      exact sin_nat_mul_pi j
    rw [kc j (mem_range.1 hj), cos_add, this]; ring
  · obtain ⟨m, rfl⟩ : ∃ m, k = n - m := ⟨n - k, by omega⟩
    have hm : m < n := by omega
    rw [show n - (n - m) = m by omega, lo m (by omega) hm, hi m (by omega) (by omega), mul_sum, mul_sum, mul_sum, mul_sum, ← sum_sub_distrib]
    refine sum_congr rfl fun j hj => ?_
    show _ = 2 * cos (π * ((perm10 n j : ℕ) + 1 / 2) * (n - m : ℕ) / n) * _
    rw [ks j (mem_range.1 hj) m hm, sin_add]; ring

/-- the buffer of re01 -/
noncomputable def a01 (n : ℕ) (x : ℕ → ℝ) (j : ℕ) : ℝ :=
  if j = 0 then x 0 else cos (π * j / (2 * n)) * (x j - x (n - j)) + sin (π * j / (2 * n)) * (x j + x (n - j))

/-- Z of re01 -/
noncomputable def z01 (n : ℕ) (y : ℕ → ℝ) (k : ℕ) : ℝ :=
  if k = 0 then y 0 else if k % 2 = 0 then y (k / 2) + y (n - k / 2)
  else if k + 1 = n then y ((k + 1) / 2) else y ((k + 1) / 2) - y (n - (k + 1) / 2)

theorem sum_refl1 (n : ℕ) (f : ℕ → ℝ) : ∑ i ∈ range (n - 1), f (i + 1) = ∑ i ∈ range (n - 1), f (n - (i + 1)) := by
  rw [← sum_range_reflect]
  exact sum_congr rfl fun i hi => by have := mem_range.1 hi; congr 1; omega

theorem redft01_math {n : ℕ} (hn : 0 < n) (x y : ℕ → ℝ)
    (hy : ∀ m < n, y m = ∑ j ∈ range n, rK .R2HC00 n j m * a01 n x j) {k : ℕ} (hk : k < n) :
    z01 n y k = ∑ j ∈ range n, rK .REDFT01 n j k * x j := by
  have hn' : (n : ℝ) ≠ 0 := by exact_mod_cast hn.ne'
  have lo : ∀ m, 2 * m ≤ n → m < n → y m = ∑ j ∈ range n, cos (2 * π * j * m / n) * a01 n x j := by
    intro m hm hm'; rw [hy m hm']; exact sum_congr rfl fun j _ => by rw [r2hc_lo j hm]
  have hi : ∀ m, 0 < m → 2 * m < n → y (n - m) = ∑ j ∈ range n, - sin (2 * π * j * m / n) * a01 n x j := by
    intro m h0 hm; rw [hy _ (by omega)]; exact sum_congr rfl fun j _ => by rw [r2hc_hi j h0 hm]
  -- the common identity: `s = ∓1`
  have key : ∀ (m : ℕ) (s : ℝ), s = 1 ∨ s = -1 → ∑ j ∈ range n, (cos (2 * π * j * m / n) + s * sin (2 * π * j * m / n)) * a01 n x j =
      x 0 + ∑ i ∈ range (n - 1), 2 * cos (2 * π * (i + 1 : ℕ) * m / n - s * (π * (i + 1 : ℕ) / (2 * n))) * x (i + 1) := by
    intro m s hs
    have hsplit : ∀ f : ℕ → ℝ, ∑ j ∈ range n, f j = f 0 + ∑ i ∈ range (n - 1), f (i + 1) := by
      intro f
      obtain ⟨t, rfl⟩ : ∃ t, n = t + 1 := ⟨n - 1, by omega⟩
      rw [sum_range_succ']; simp; ring
    rw [hsplit]
    have h0 : (cos (2 * π * ((0 : ℕ) : ℝ) * m / n) + s * sin (2 * π * ((0 : ℕ) : ℝ) * m / n)) * a01 n x 0 = x 0 := by simp [a01]
    rw [h0]
    congr 1
    -- separate the terms in x j and x (n-j)
    have e1 : ∀ i ∈ range (n - 1), (cos (2 * π * (i + 1 : ℕ) * m / n) + s * sin (2 * π * (i + 1 : ℕ) * m / n)) * a01 n x (i + 1) =
        (cos (2 * π * (i + 1 : ℕ) * m / n) + s * sin (2 * π * (i + 1 : ℕ) * m / n)) * (cos (π * (i + 1 : ℕ) / (2 * n)) + sin (π * (i + 1 : ℕ) / (2 * n))) * x (i + 1) +
        (cos (2 * π * (i + 1 : ℕ) * m / n) + s * sin (2 * π * (i + 1 : ℕ) * m / n)) * (sin (π * (i + 1 : ℕ) / (2 * n)) - cos (π * (i + 1 : ℕ) / (2 * n))) * x (n - (i + 1)) := by
      intro i _
      rw [a01, if_neg (by omega)]; ring
    rw [sum_congr rfl e1, sum_add_distrib]
    have e2 : ∑ i ∈ range (n - 1), (cos (2 * π * (i + 1 : ℕ) * m / n) + s * sin (2 * π * (i + 1 : ℕ) * m / n)) * (sin (π * (i + 1 : ℕ) / (2 * n)) - cos (π * (i + 1 : ℕ) / (2 * n))) * x (n - (i + 1)) =
        ∑ i ∈ range (n - 1), (cos (2 * π * (i + 1 : ℕ) * m / n) - s * sin (2 * π * (i + 1 : ℕ) * m / n)) * (cos (π * (i + 1 : ℕ) / (2 * n)) - sin (π * (i + 1 : ℕ) / (2 * n))) * x (i + 1) := by
      rw [sum_refl1 n (fun t => (cos (2 * π * (t : ℕ) * m / n) + s * sin (2 * π * (t : ℕ) * m / n)) * (sin (π * (t : ℕ) / (2 * n)) - cos (π * (t : ℕ) / (2 * n))) * x (n - t))]
      refine sum_congr rfl fun i hi => ?_
      have hi := mem_range.1 hi
      have a1 : cos (2 * π * ((n - (i + 1) : ℕ) : ℝ) * m / n) = cos (2 * π * (i + 1 : ℕ) * m / n) := by
        rw [← cos_nat_two_pi_sub m (2 * π * (i + 1 : ℕ) * m / n)]; congr 1; rw [Nat.cast_sub (by omega)]; field_simp
      have a2 : sin (2 * π * ((n - (i + 1) : ℕ) : ℝ) * m / n) = - sin (2 * π * (i + 1 : ℕ) * m / n) := by
        rw [← sin_nat_two_pi_sub m (2 * π * (i + 1 : ℕ) * m / n)]; congr 1; rw [Nat.cast_sub (by omega)]; field_simp
      have a3 : cos (π * ((n - (i + 1) : ℕ) : ℝ) / (2 * n)) = sin (π * (i + 1 : ℕ) / (2 * n)) := by
        rw [← cos_pi_div_two_sub]; congr 1; rw [Nat.cast_sub (by omega)]; field_simp
      have a4 : sin (π * ((n - (i + 1) : ℕ) : ℝ) / (2 * n)) = cos (π * (i + 1 : ℕ) / (2 * n)) := by
        rw [← sin_pi_div_two_sub]; congr 1; rw [Nat.cast_sub (by omega)]; field_simp
      rw [a1, a2, a3, a4, show n - (n - (i + 1)) = i + 1 by omega]; ring
    rw [e2, ← sum_add_distrib]
    refine sum_congr rfl fun i hi => ?_
    rcases hs with rfl | rfl
    · rw [one_mul (π * _ / _), cos_sub]; ring
    · rw [neg_one_mul (π * _ / _), sub_neg_eq_add, cos_add]; ring
  -- the right-hand side
  have rhs : ∑ j ∈ range n, rK .REDFT01 n j k * x j = x 0 + ∑ i ∈ range (n - 1), 2 * cos (π * (i + 1 : ℕ) * (k + 1 / 2) / n) * x (i + 1) := by
    obtain ⟨t, rfl⟩ : ∃ t, n = t + 1 := ⟨n - 1, by omega⟩
    rw [sum_range_succ']
    have : rK .REDFT01 (t + 1) 0 k = 1 := by simp [rK]
    rw [this]
    simp only [Nat.add_sub_cancel]
    rw [one_mul, add_comm]
    rfl
  rw [rhs]
  unfold z01
  split_ifs with h0 h1 h2
  · subst h0
    have := key 0 (-1) (Or.inr rfl)
    rw [lo 0 (by omega) (by omega)]
    rw [sum_congr rfl (fun (j : ℕ) _ => show cos (2 * π * (j : ℝ) * ((0 : ℕ) : ℝ) / n) * a01 n x j = (cos (2 * π * j * ((0 : ℕ) : ℝ) / n) + (-1) * sin (2 * π * j * ((0 : ℕ) : ℝ) / n)) * a01 n x j by simp), this]
    congr 1
    refine sum_congr rfl fun i _ => ?_
    congr 3; push_cast; field_simp; ring
  · obtain ⟨m, rfl⟩ : ∃ m, k = 2 * m := ⟨k / 2, by omega⟩
    rw [show 2 * m / 2 = m by omega, lo m (by omega) (by omega), hi m (by omega) (by omega), ← sum_add_distrib]
    rw [sum_congr rfl (fun (j : ℕ) _ => show cos (2 * π * (j : ℝ) * m / n) * a01 n x j + -sin (2 * π * j * m / n) * a01 n x j = (cos (2 * π * j * m / n) + (-1) * sin (2 * π * j * m / n)) * a01 n x j by ring), key m (-1) (Or.inr rfl)]
    congr 1
    refine sum_congr rfl fun i _ => ?_
    congr 3; push_cast; field_simp; ring
  · obtain ⟨m, rfl⟩ : ∃ m, k = 2 * m - 1 := ⟨(k + 1) / 2, by omega⟩
    have hm : 0 < m := by omega
    have h2m : n = 2 * m := by omega
    rw [show (2 * m - 1 + 1) / 2 = m by omega, lo m (by omega) (by omega)]
    rw [sum_congr rfl (fun (j : ℕ) _ => show cos (2 * π * (j : ℝ) * m / n) * a01 n x j = (cos (2 * π * j * m / n) + 1 * sin (2 * π * j * m / n)) * a01 n x j by
      have : sin (2 * π * j * m / n) = 0 := by
        rw [show 2 * π * (j : ℝ) * m / n = j * π by rw [h2m]; push_cast; have : (m : ℝ) ≠ 0 := by exact_mod_cast hm.ne'
                                                    field_simp]
        exact sin_nat_mul_pi j
      rw [this]; ring), key m 1 (Or.inl rfl)]
    congr 1
    refine sum_congr rfl fun i _ => ?_
    congr 3; rw [Nat.cast_sub (by omega)]; push_cast; field_simp; ring
  · obtain ⟨m, rfl⟩ : ∃ m, k = 2 * m - 1 := ⟨(k + 1) / 2, by omega⟩
    have hm : 0 < m := by omega
    rw [show (2 * m - 1 + 1) / 2 = m by omega, lo m (by omega) (by omega), hi m (by omega) (by omega), ← sum_sub_distrib]
    rw [sum_congr rfl (fun (j : ℕ) _ => show cos (2 * π * (j : ℝ) * m / n) * a01 n x j - -sin (2 * π * j * m / n) * a01 n x j = (cos (2 * π * j * m / n) + 1 * sin (2 * π * j * m / n)) * a01 n x j by ring), key m 1 (Or.inl rfl)]
    congr 1
    refine sum_congr rfl fun i _ => ?_
    congr 3; rw [Nat.cast_sub (by omega)]; push_cast; field_simp; ring

/-- the odd transforms are the even ones with one side reversed and alternate signs on the other -/
theorem rodft10_redft10 {n j k : ℕ} (hk : k < n) : rK .RODFT10 n j k = (-1) ^ j * rK .REDFT10 n j (n - 1 - k) := by
  have hn' : (n : ℝ) ≠ 0 := by exact_mod_cast (show n ≠ 0 by omega)
  show 2 * sin (π * (j + 1 / 2) * (k + 1) / n) = (-1) ^ j * (2 * cos (π * (j + 1 / 2) * ((n - 1 - k : ℕ) : ℝ) / n))
  rw [show π * ((j : ℝ) + 1 / 2) * ((n - 1 - k : ℕ) : ℝ) / n = π * (j + 1 / 2) - π * (j + 1 / 2) * (k + 1) / n by
    rw [Nat.cast_sub (by omega), Nat.cast_sub (by omega)]; push_cast; field_simp; ring, cos_half_sub]
  have : ((-1 : ℝ) ^ j) * (-1) ^ j = 1 := by rw [← mul_pow]; simp
  linear_combination (-2 * sin (π * (j + 1 / 2) * (k + 1) / n)) * this

theorem rodft01_redft01 {n j k : ℕ} (hj : j < n) : rK .RODFT01 n j k = (-1) ^ k * rK .REDFT01 n (n - 1 - j) k := by
  have hn' : (n : ℝ) ≠ 0 := by exact_mod_cast (show n ≠ 0 by omega)
  show (if j + 1 = n then (-1) ^ k else 2 * sin (π * (j + 1) * (k + 1 / 2) / n)) = (-1) ^ k * (if n - 1 - j = 0 then 1 else 2 * cos (π * ((n - 1 - j : ℕ) : ℝ) * (k + 1 / 2) / n))
  by_cases h : j + 1 = n
  · rw [if_pos h, if_pos (by omega), mul_one]
  · rw [if_neg h, if_neg (by omega), show π * ((n - 1 - j : ℕ) : ℝ) * ((k : ℝ) + 1 / 2) / n = π * (k + 1 / 2) - π * (j + 1) * (k + 1 / 2) / n by
      rw [Nat.cast_sub (by omega), Nat.cast_sub (by omega)]; push_cast; field_simp; ring, cos_half_sub]
    have : ((-1 : ℝ) ^ k) * (-1) ^ k = 1 := by rw [← mul_pow]; simp
    linear_combination (-2 * sin (π * (j + 1) * (k + 1 / 2) / n)) * this

theorem rodft11_redft11 {n j k : ℕ} (hj : j < n) : rK .RODFT11 n j k = (-1) ^ k * rK .REDFT11 n (n - 1 - j) k := by
  have hn' : (n : ℝ) ≠ 0 := by exact_mod_cast (show n ≠ 0 by omega)
  show 2 * sin (π * (j + 1 / 2) * (k + 1 / 2) / n) = (-1) ^ k * (2 * cos (π * (((n - 1 - j : ℕ) : ℝ) + 1 / 2) * (k + 1 / 2) / n))
  rw [show π * (((n - 1 - j : ℕ) : ℝ) + 1 / 2) * ((k : ℝ) + 1 / 2) / n = π * (k + 1 / 2) - π * (j + 1 / 2) * (k + 1 / 2) / n by
      rw [Nat.cast_sub (by omega), Nat.cast_sub (by omega)]; push_cast; field_simp; ring, cos_half_sub]
  have : ((-1 : ℝ) ^ k) * (-1) ^ k = 1 := by rw [← mul_pow]; simp
  linear_combination (-2 * sin (π * (j + 1 / 2) * (k + 1 / 2) / n)) * this

/-- a sum read backwards -/
theorem sum_rev (n : ℕ) (f : ℕ → ℝ) : ∑ j ∈ range n, f (n - 1 - j) = ∑ j ∈ range n, f j := sum_range_reflect f n

theorem rodft10_math {n : ℕ} (hn : 0 < n) (x y : ℕ → ℝ)
    (hy : ∀ m < n, y m = ∑ j ∈ range n, rK .R2HC00 n j m * ((-1) ^ perm10 n j * x (perm10 n j))) {k : ℕ} (hk : k < n) :
    z10 n y (n - 1 - k) = ∑ j ∈ range n, rK .RODFT10 n j k * x j := by
  rw [redft10_math hn (fun l => (-1) ^ l * x l) y hy (by omega)]
  refine sum_congr rfl fun j _ => ?_
  rw [rodft10_redft10 hk]; ring

theorem rodft01_math {n : ℕ} (hn : 0 < n) (x y : ℕ → ℝ)
    (hy : ∀ m < n, y m = ∑ j ∈ range n, rK .R2HC00 n j m * a01 n (fun l => x (n - 1 - l)) j) {k : ℕ} (hk : k < n) :
    (-1) ^ k * z01 n y k = ∑ j ∈ range n, rK .RODFT01 n j k * x j := by
  rw [redft01_math hn _ y hy hk, mul_sum, ← sum_rev]
  refine sum_congr rfl fun j hj => ?_
  have := mem_range.1 hj
  rw [show n - 1 - (n - 1 - j) = j by omega, rodft01_redft01 this]; ring

end FFTW.Spec
