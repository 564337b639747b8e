import Verif.Proofs.ReodftMath2

/-!
# The algebra of reodft00e-splitradix
-/

namespace FFTW.Spec
open Real Finset

/-- real part of frequency `k ≤ m` of a halfcomplex array of size `m` -/
noncomputable def hcRe (m : ℕ) (y : ℕ → ℝ) (k : ℕ) : ℝ := if 2 * k ≤ m then y k else y (m - k)
/-- imaginary part -/
noncomputable def hcIm (m : ℕ) (y : ℕ → ℝ) (k : ℕ) : ℝ := if k = 0 ∨ k = m ∨ 2 * k = m then 0 else if 2 * k < m then y (m - k) else -y k

theorem hc_spec {m : ℕ} (hm : 0 < m) {b y : ℕ → ℝ} (hy : ∀ k < m, y k = ∑ j ∈ range m, rK .R2HC00 m j k * b j) {k : ℕ} (hk : k ≤ m) :
    hcRe m y k = ∑ j ∈ range m, b j * cos (2 * π * j * k / m) ∧ hcIm m y k = ∑ j ∈ range m, b j * - sin (2 * π * j * k / m) := by
  have hm' : (m : ℝ) ≠ 0 := by exact_mod_cast hm.ne'
  have lo : ∀ t, 2 * t ≤ m → y t = ∑ j ∈ range m, b j * cos (2 * π * j * t / m) := by
    intro t ht; rw [hy t (by omega)]; exact sum_congr rfl fun j _ => by rw [r2hc_lo j ht, mul_comm]
  have hi : ∀ t, 0 < t → 2 * t < m → y (m - t) = ∑ j ∈ range m, b j * - sin (2 * π * j * t / m) := by
    intro t h0 ht; rw [hy _ (by omega)]; exact sum_congr rfl fun j _ => by rw [r2hc_hi j h0 ht, mul_comm]
  constructor
  · unfold hcRe
    split_ifs with h
    · exact lo k h
    · rw [lo _ (by omega)]
      refine sum_congr rfl fun j _ => ?_
      rw [← cos_nat_two_pi_sub j]; congr 2; rw [Nat.cast_sub hk]; field_simp; ring
  · unfold hcIm
    split_ifs with h h1
    · symm
      refine sum_eq_zero fun j _ => ?_
      have : sin (2 * π * j * k / m) = 0 := by
        rcases h with rfl | rfl | h
        · simp
        · rw [show 2 * π * (j : ℝ) * k / k = (2 * j : ℕ) * π by push_cast; field_simp]; exact sin_nat_mul_pi _
        · rw [show 2 * π * (j : ℝ) * k / m = j * π by
              have hk0 : (k : ℝ) ≠ 0 := by intro e; apply hm'; rw [← h]; push_cast; rw [e]; simp
              rw [← h]; push_cast; field_simp]; exact sin_nat_mul_pi _
      rw [this]; simp
    · exact hi k (by omega) h1
    · have h2 := hi (m - k) (by omega) (by omega)
      rw [show m - (m - k) = k by omega] at h2
      rw [h2, ← sum_neg_distrib]
      refine sum_congr rfl fun j _ => ?_
      have : sin (2 * π * (j : ℝ) * (m - k : ℕ) / m) = - sin (2 * π * (j : ℝ) * k / m) := by
        rw [← sin_nat_two_pi_sub j]; congr 2; rw [Nat.cast_sub hk]; field_simp
      rw [this]; ring

theorem sum_parity (m : ℕ) (f : ℕ → ℝ) : ∑ j ∈ range (2 * m + 1), f j = ∑ j ∈ range (m + 1), f (2 * j) + ∑ t ∈ range m, f (2 * t + 1) := by
  induction m with
  | zero => simp
  | succ m ih => rw [show 2 * (m + 1) + 1 = 2 * m + 1 + 1 + 1 by ring, sum_range_succ, sum_range_succ, ih, sum_range_succ (fun j => f (2 * j)) (m + 1), sum_range_succ (fun t => f (2 * t + 1)) m, show 2 * (m + 1) = 2 * m + 1 + 1 by ring]; ring

/-- the odd-indexed part of REDFT00 of size `2m+1`, at `k ≤ m` -/
noncomputable def oddE (m : ℕ) (y : ℕ → ℝ) (k : ℕ) : ℝ := 2 * (cos (π * k / (2 * m)) * hcRe m y k + sin (π * k / (2 * m)) * hcIm m y k)

/-- output of the even split-radix step -/
noncomputable def zE (m : ℕ) (e y : ℕ → ℝ) (k : ℕ) : ℝ := if k ≤ m then e k + oddE m y k else e (2 * m - k) - oddE m y (2 * m - k)

theorem splitE_math {m : ℕ} (hm : 0 < m) (x e y : ℕ → ℝ) (he : ∀ k < m + 1, e k = ∑ j ∈ range (m + 1), rK .REDFT00 (m + 1) j k * x (2 * j))
    (hy : ∀ k < m, y k = ∑ j ∈ range m, rK .R2HC00 m j k * x (2 * perm10 m j + 1)) {k : ℕ} (hk : k < 2 * m + 1) :
    zE m e y k = ∑ j ∈ range (2 * m + 1), rK .REDFT00 (2 * m + 1) j k * x j := by
  have hm' : (m : ℝ) ≠ 0 := by exact_mod_cast hm.ne'
  -- kernel at odd inputs
  have ko : ∀ t < m, ∀ k, rK .REDFT00 (2 * m + 1) (2 * t + 1) k = 2 * cos (π * (2 * t + 1) * k / (2 * m)) := by
    intro t ht k
    show (if 2 * t + 1 = 0 then (1 : ℝ) else if 2 * t + 1 + 1 = 2 * m + 1 then (-1) ^ k else 2 * cos (π * ((2 * t + 1 : ℕ) : ℝ) * k / (((2 * m + 1 : ℕ) : ℝ) - 1))) = _
    rw [if_neg (by omega), if_neg (by omega)]
    push_cast; congr 3; ring
  -- kernel at even inputs
  have ke : ∀ j < m + 1, ∀ k, k ≤ m → rK .REDFT00 (2 * m + 1) (2 * j) k = rK .REDFT00 (m + 1) j k ∧ rK .REDFT00 (2 * m + 1) (2 * j) (2 * m - k) = rK .REDFT00 (m + 1) j k := by
    intro j hj k hk
    show (if 2 * j = 0 then (1 : ℝ) else if 2 * j + 1 = 2 * m + 1 then (-1) ^ k else 2 * cos (π * ((2 * j : ℕ) : ℝ) * k / (((2 * m + 1 : ℕ) : ℝ) - 1))) =
        (if j = 0 then (1 : ℝ) else if j + 1 = m + 1 then (-1) ^ k else 2 * cos (π * (j : ℝ) * k / (((m + 1 : ℕ) : ℝ) - 1))) ∧
      (if 2 * j = 0 then (1 : ℝ) else if 2 * j + 1 = 2 * m + 1 then (-1) ^ (2 * m - k) else 2 * cos (π * ((2 * j : ℕ) : ℝ) * ((2 * m - k : ℕ) : ℝ) / (((2 * m + 1 : ℕ) : ℝ) - 1))) =
        (if j = 0 then (1 : ℝ) else if j + 1 = m + 1 then (-1) ^ k else 2 * cos (π * (j : ℝ) * k / (((m + 1 : ℕ) : ℝ) - 1)))
    by_cases h0 : j = 0
    · simp [h0]
    · rw [if_neg (show ¬ 2 * j = 0 by omega), if_neg h0, if_neg (show ¬ 2 * j = 0 by omega)]
      by_cases h1 : j = m
      · rw [if_pos (show 2 * j + 1 = 2 * m + 1 by omega), if_pos (show j + 1 = m + 1 by omega), if_pos (show 2 * j + 1 = 2 * m + 1 by omega)]
        refine ⟨rfl, ?_⟩
        have : (-1 : ℝ) ^ (2 * m - k) * (-1) ^ k = (-1) ^ k * (-1) ^ k := by rw [← pow_add, ← pow_add, Nat.sub_add_cancel (by omega), pow_mul, ← two_mul, pow_mul]; simp
        exact mul_right_cancel₀ (pow_ne_zero _ (by norm_num)) this
      · rw [if_neg (show ¬ 2 * j + 1 = 2 * m + 1 by omega), if_neg (show ¬ j + 1 = m + 1 by omega), if_neg (show ¬ 2 * j + 1 = 2 * m + 1 by omega)]
        have e1 : π * ((2 * j : ℕ) : ℝ) * k / (((2 * m + 1 : ℕ) : ℝ) - 1) = π * (j : ℝ) * k / (((m + 1 : ℕ) : ℝ) - 1) := by push_cast; rw [add_sub_cancel_right, add_sub_cancel_right]; field_simp
        refine ⟨by rw [e1], ?_⟩
        rw [← cos_nat_two_pi_sub j (π * (j : ℝ) * k / (((m + 1 : ℕ) : ℝ) - 1))]
        congr 2
        rw [Nat.cast_sub (by omega)]; push_cast; rw [add_sub_cancel_right, add_sub_cancel_right]; field_simp
  -- the odd part
  have odd : ∀ k ≤ m, oddE m y k = ∑ t ∈ range m, 2 * cos (π * (2 * t + 1) * k / (2 * m)) * x (2 * t + 1) := by
    intro k hk
    obtain ⟨h1, h2⟩ := hc_spec hm (b := fun j => x (2 * perm10 m j + 1)) hy hk
    rw [oddE, h1, h2, mul_sum, mul_sum, ← sum_add_distrib, mul_sum]
    conv_rhs => rw [sum_perm10]
    refine sum_congr rfl fun j hj => ?_
    have hj := mem_range.1 hj
    have hc : cos (π * (2 * ((perm10 m j : ℕ) : ℝ) + 1) * k / (2 * m)) = cos (π * k / (2 * m) + 2 * π * j * k / m) := by
      unfold perm10
      split_ifs with h
      · congr 1; push_cast; field_simp; ring
      · rw [← cos_nat_two_pi_sub k (π * k / (2 * m) + 2 * π * j * k / m)]; congr 1
        rw [Nat.cast_sub (by omega)]; push_cast [Nat.cast_sub (show j ≤ m by omega)]; field_simp; ring
    rw [hc, cos_add]; ring
  have hodd2 : ∀ t k : ℕ, k ≤ 2 * m → cos (π * (2 * t + 1) * (2 * m - k : ℕ) / (2 * m)) = - cos (π * (2 * t + 1) * k / (2 * m)) := by
    intro t k hk
    rw [show π * (2 * (t : ℝ) + 1) * (2 * m - k : ℕ) / (2 * m) = (t : ℝ) * (2 * π) + (π - π * (2 * t + 1) * k / (2 * m)) by
      rw [Nat.cast_sub hk]; push_cast; field_simp; ring, add_comm, cos_add_nat_mul_two_pi, cos_pi_sub]
  rw [sum_parity]
  unfold zE
  split_ifs with h
  · rw [he k (by omega), odd k h]
    congr 1
    · exact sum_congr rfl fun j hj => by rw [(ke j (mem_range.1 hj) k h).1]
    · exact sum_congr rfl fun t ht => by rw [ko t (mem_range.1 ht)]
  · rw [he _ (by omega), odd _ (by omega), sub_eq_add_neg, ← sum_neg_distrib]
    congr 1
    · refine sum_congr rfl fun j hj => ?_
      rw [← (ke j (mem_range.1 hj) (2 * m - k) (by omega)).2, show 2 * m - (2 * m - k) = k by omega]
    · refine sum_congr rfl fun t ht => ?_
      rw [ko t (mem_range.1 ht), hodd2 t k (by omega)]; ring

theorem sum_parity' (m : ℕ) (hm : 0 < m) (f : ℕ → ℝ) : ∑ j ∈ range (2 * m - 1), f j = ∑ j ∈ range (m - 1), f (2 * j + 1) + ∑ t ∈ range m, f (2 * t) := by
  obtain ⟨m, rfl⟩ : ∃ t, m = t + 1 := ⟨m - 1, by omega⟩
  rw [show 2 * (m + 1) - 1 = 2 * m + 1 by omega, sum_parity, add_comm]
  rfl

/-- the odd part of RODFT00 of size `2m-1`, at frequency `K ≤ m` -/
noncomputable def oddO (m : ℕ) (y : ℕ → ℝ) (K : ℕ) : ℝ := 2 * (sin (π * K / (2 * m)) * hcRe m y K - cos (π * K / (2 * m)) * hcIm m y K)

/-- output of the odd split-radix step -/
noncomputable def zO (m : ℕ) (e y : ℕ → ℝ) (k : ℕ) : ℝ :=
  if k + 1 < m then oddO m y (k + 1) + e k else if k + 1 = m then oddO m y m else oddO m y (2 * m - (k + 1)) - e (2 * m - (k + 1) - 1)

/-- contents of the buffer -/
noncomputable def bO (m : ℕ) (x : ℕ → ℝ) (j : ℕ) : ℝ := if 2 * j < m then x (2 * perm10 m j) else - x (2 * perm10 m j)

theorem splitO_math {m : ℕ} (hm : 0 < m) (x e y : ℕ → ℝ) (he : ∀ k < m - 1, e k = ∑ j ∈ range (m - 1), rK .RODFT00 (m - 1) j k * x (2 * j + 1))
    (hy : ∀ k < m, y k = ∑ j ∈ range m, rK .R2HC00 m j k * bO m x j) {k : ℕ} (hk : k < 2 * m - 1) :
    zO m e y k = ∑ j ∈ range (2 * m - 1), rK .RODFT00 (2 * m - 1) j k * x j := by
  have hm' : (m : ℝ) ≠ 0 := by exact_mod_cast hm.ne'
  have c1 : ((2 * m - 1 : ℕ) : ℝ) + 1 = 2 * m := by rw [Nat.cast_sub (by omega)]; push_cast; ring
  have c2 : ((m - 1 : ℕ) : ℝ) + 1 = m := by rw [Nat.cast_sub (by omega)]; push_cast; ring
  have ko : ∀ t k : ℕ, rK .RODFT00 (2 * m - 1) (2 * t) k = 2 * sin (π * (2 * t + 1) * (k + 1 : ℕ) / (2 * m)) := by
    intro t k
    show 2 * sin (π * (((2 * t : ℕ) : ℝ) + 1) * ((k : ℝ) + 1) / (((2 * m - 1 : ℕ) : ℝ) + 1)) = _
    rw [c1]; push_cast; rfl
  have ke : ∀ j k : ℕ, rK .RODFT00 (2 * m - 1) (2 * j + 1) k = 2 * sin (π * (j + 1) * (k + 1 : ℕ) / m) := by
    intro j k
    show 2 * sin (π * (((2 * j + 1 : ℕ) : ℝ) + 1) * ((k : ℝ) + 1) / (((2 * m - 1 : ℕ) : ℝ) + 1)) = _
    rw [c1]; push_cast; congr 2; field_simp; ring
  have ke' : ∀ j k : ℕ, rK .RODFT00 (m - 1) j k = 2 * sin (π * (j + 1) * (k + 1 : ℕ) / m) := by
    intro j k
    show 2 * sin (π * ((j : ℝ) + 1) * ((k : ℝ) + 1) / (((m - 1 : ℕ) : ℝ) + 1)) = _
    rw [c2]; push_cast; rfl
  have odd : ∀ K ≤ m, oddO m y K = ∑ t ∈ range m, 2 * sin (π * (2 * t + 1) * K / (2 * m)) * x (2 * t) := by
    intro K hK
    obtain ⟨h1, h2⟩ := hc_spec hm (b := bO m x) hy hK
    rw [oddO, h1, h2, mul_sum, mul_sum, ← sum_sub_distrib, mul_sum]
    conv_rhs => rw [sum_perm10]
    refine sum_congr rfl fun j hj => ?_
    have hj := mem_range.1 hj
    have hs : sin (π * (2 * ((perm10 m j : ℕ) : ℝ) + 1) * K / (2 * m)) * x (2 * perm10 m j) = bO m x j * sin (π * K / (2 * m) + 2 * π * j * K / m) := by
      unfold bO
      split_ifs with h
      · rw [perm10, if_pos h, mul_comm]; congr 2; push_cast; field_simp; ring
      · rw [perm10, if_neg h, show π * (2 * ((2 * (m - j) - 1 : ℕ) : ℝ) + 1) * K / (2 * m) = K * (2 * π) - (π * K / (2 * m) + 2 * π * j * K / m) by
          rw [Nat.cast_sub (by omega)]; push_cast [Nat.cast_sub (show j ≤ m by omega)]; field_simp; ring, sin_nat_two_pi_sub]; ring
    rw [mul_assoc 2 (sin _) (x _), hs, sin_add]; ring
  have hodd2 : ∀ t K : ℕ, K ≤ 2 * m → sin (π * (2 * t + 1) * (2 * m - K : ℕ) / (2 * m)) = sin (π * (2 * t + 1) * K / (2 * m)) := by
    intro t K hK
    rw [show π * (2 * (t : ℝ) + 1) * (2 * m - K : ℕ) / (2 * m) = (t : ℝ) * (2 * π) + (π - π * (2 * t + 1) * K / (2 * m)) by
      rw [Nat.cast_sub hK]; push_cast; field_simp; ring, add_comm, sin_add_nat_mul_two_pi, sin_pi_sub]
  have he2 : ∀ j K : ℕ, K ≤ 2 * m → sin (π * (j + 1) * (2 * m - K : ℕ) / m) = - sin (π * (j + 1) * K / m) := by
    intro j K hK
    rw [← sin_nat_two_pi_sub (j + 1)]; congr 1; rw [Nat.cast_sub hK]; push_cast; field_simp
  rw [sum_parity' m hm]
  unfold zO
  split_ifs with h h1
  · rw [add_comm, he k (by omega), odd _ (by omega)]
    congr 1
    · exact sum_congr rfl fun j _ => by rw [ke, ke']
    · exact sum_congr rfl fun t _ => by rw [ko]
  · have z : ∑ j ∈ range (m - 1), rK .RODFT00 (2 * m - 1) (2 * j + 1) k * x (2 * j + 1) = 0 := by
      refine sum_eq_zero fun j _ => ?_
      rw [ke, show π * ((j : ℝ) + 1) * (k + 1 : ℕ) / m = (j + 1 : ℕ) * π by rw [h1]; push_cast; field_simp, sin_nat_mul_pi]; simp
    rw [z, zero_add, odd m le_rfl]
    exact sum_congr rfl fun t _ => by rw [ko, h1]
  · rw [he _ (by omega), odd _ (by omega), sub_eq_add_neg, ← sum_neg_distrib, add_comm]
    congr 1
    · refine sum_congr rfl fun j _ => ?_
      rw [ke, ke', show 2 * m - (k + 1) - 1 + 1 = 2 * m - (k + 1) by omega, he2 j _ (by omega)]; ring
    · exact sum_congr rfl fun t _ => by rw [ko, hodd2 t _ (by omega)]

end FFTW.Spec
