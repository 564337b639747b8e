import Verif.Proofs.ReodftMath

/-!
# The algebra of reodft11e-radix2 and reodft11e-r2hc-odd
-/

namespace FFTW.Spec
open Real Finset

/-! ### radix 2: two REDFT01 of half the size -/

/-- input of the first half-size transform -/
noncomputable def e11 (x : ℕ → ℝ) (i : ℕ) : ℝ := if i = 0 then 2 * x 0 else x (2 * i - 1) + x (2 * i)
/-- input of the second -/
noncomputable def f11 (n : ℕ) (x : ℕ → ℝ) (j : ℕ) : ℝ := if j = 0 then 2 * x (n - 1) else x (n - 2 * j - 1) - x (n - 2 * j)

/-- contents of the buffer -/
noncomputable def a11 (n : ℕ) (x : ℕ → ℝ) (j : ℕ) : ℝ :=
  if j < n / 2 then a01 (n / 2) (e11 x) j else a01 (n / 2) (f11 n x) (j - n / 2)

/-- combining the transformed halves -/
noncomputable def z11 (n : ℕ) (y : ℕ → ℝ) (k : ℕ) : ℝ :=
  if k < n / 2 then cos (π * (k + 1 / 2) / (2 * n)) * z01 (n / 2) y k + (-1) ^ k * sin (π * (k + 1 / 2) / (2 * n)) * z01 (n / 2) (fun m => y (n / 2 + m)) k
  else sin (π * (((n - 1 - k : ℕ) : ℝ) + 1 / 2) / (2 * n)) * z01 (n / 2) y (n - 1 - k)
    - (-1) ^ (n - 1 - k) * cos (π * (((n - 1 - k : ℕ) : ℝ) + 1 / 2) / (2 * n)) * z01 (n / 2) (fun m => y (n / 2 + m)) (n - 1 - k)

theorem sum_odd_even (m : ℕ) (hm : 0 < m) (f : ℕ → ℝ) :
    ∑ j ∈ range (2 * m), f j = f 0 + f (2 * m - 1) + ∑ i ∈ range (m - 1), (f (2 * (i + 1) - 1) + f (2 * (i + 1))) := by
  obtain ⟨m, rfl⟩ : ∃ t, m = t + 1 := ⟨m - 1, by omega⟩
  simp only [Nat.add_sub_cancel]
  induction m with
  | zero => simp [sum_range_succ]
  | succ m ih =>
    rw [show 2 * (m + 1 + 1) = 2 * (m + 1) + 1 + 1 by ring, sum_range_succ, sum_range_succ, ih (by omega), sum_range_succ]
    rw [show 2 * (m + 1) + 1 + 1 - 1 = 2 * (m + 1) + 1 by omega]
    ring

theorem redft11_math {n : ℕ} (hn : 0 < n) (he : n % 2 = 0) (x y : ℕ → ℝ)
    (hy1 : ∀ m < n / 2, y m = ∑ j ∈ range (n / 2), rK .R2HC00 (n / 2) j m * a11 n x j)
    (hy2 : ∀ m < n / 2, y (n / 2 + m) = ∑ j ∈ range (n / 2), rK .R2HC00 (n / 2) j m * a11 n x (n / 2 + j)) {k : ℕ} (hk : k < n) :
    z11 n y k = ∑ j ∈ range n, rK .REDFT11 n j k * x j := by
  obtain ⟨m, rfl⟩ : ∃ m, n = 2 * m := ⟨n / 2, by omega⟩
  have hm : 0 < m := by omega
  have hm' : (m : ℝ) ≠ 0 := by exact_mod_cast hm.ne'
  rw [show 2 * m / 2 = m by omega] at hy1 hy2
  -- the two half-size transforms
  have E : ∀ k < m, z01 m y k = ∑ j ∈ range m, rK .REDFT01 m j k * e11 x j := fun k hk =>
    redft01_math hm (e11 x) y (fun t ht => by
      rw [hy1 t ht]; refine sum_congr rfl fun j hj => ?_
      rw [a11, show 2 * m / 2 = m by omega, if_pos (mem_range.1 hj)]) hk
  have F : ∀ k < m, z01 m (fun t => y (m + t)) k = ∑ j ∈ range m, rK .REDFT01 m j k * f11 (2 * m) x j := fun k hk =>
    redft01_math hm (f11 (2 * m) x) (fun t => y (m + t)) (fun t ht => by
      rw [hy2 t ht]; refine sum_congr rfl fun j hj => ?_
      rw [a11, show 2 * m / 2 = m by omega, if_neg (by omega), show m + j - m = j by omega]) hk
  have R01 : ∀ (f : ℕ → ℝ) (k : ℕ), ∑ j ∈ range m, rK .REDFT01 m j k * f j = f 0 + ∑ i ∈ range (m - 1), 2 * cos (π * (i + 1 : ℕ) * (k + 1 / 2) / m) * f (i + 1) := by
    intro f k
    obtain ⟨t, rfl⟩ : ∃ t, m = t + 1 := ⟨m - 1, by omega⟩
    rw [sum_range_succ', show rK .REDFT01 (t + 1) 0 k = 1 by simp [rK], one_mul, add_comm]
    rfl
  -- the core identity, for `k < m`; `θ = π (k+1/2) / (2m)`
  have core : ∀ k < m,
      cos (π * (k + 1 / 2) / (2 * ((2 * m : ℕ) : ℝ))) * z01 m y k + (-1) ^ k * sin (π * (k + 1 / 2) / (2 * ((2 * m : ℕ) : ℝ))) * z01 m (fun t => y (m + t)) k
        = ∑ j ∈ range (2 * m), 2 * cos (π * (j + 1 / 2) * (k + 1 / 2) / (2 * m : ℕ)) * x j ∧
      sin (π * (k + 1 / 2) / (2 * ((2 * m : ℕ) : ℝ))) * z01 m y k - (-1) ^ k * cos (π * (k + 1 / 2) / (2 * ((2 * m : ℕ) : ℝ))) * z01 m (fun t => y (m + t)) k
        = ∑ j ∈ range (2 * m), 2 * ((-1) ^ j * sin (π * (j + 1 / 2) * (k + 1 / 2) / (2 * m : ℕ))) * x j := by
    intro k hk
    set θ : ℝ := π * (k + 1 / 2) / (2 * m) with hθ
    have eh : π * (k + 1 / 2) / (2 * ((2 * m : ℕ) : ℝ)) = θ / 2 := by rw [hθ]; push_cast; field_simp
    rw [eh, E k hk, F k hk, R01, R01]
    have sq : ((-1 : ℝ) ^ k) * (-1) ^ k = 1 := by rw [← mul_pow]; simp
    have hE : ∀ i : ℕ, π * (i + 1 : ℕ) * ((k : ℝ) + 1 / 2) / m = 2 * (i + 1 : ℕ) * θ := by intro i; rw [hθ]; field_simp
    have nθ : 2 * (m : ℝ) * θ = π * (k + 1 / 2) := by rw [hθ]; field_simp
    have hF : ∑ i ∈ range (m - 1), 2 * cos (π * (i + 1 : ℕ) * ((k : ℝ) + 1 / 2) / m) * f11 (2 * m) x (i + 1) =
        ∑ i ∈ range (m - 1), 2 * ((-1) ^ k * sin (2 * (i + 1 : ℕ) * θ)) * (x (2 * (i + 1) - 1) - x (2 * (i + 1))) := by
      rw [sum_refl1 m (fun t => 2 * cos (π * (t : ℕ) * ((k : ℝ) + 1 / 2) / m) * f11 (2 * m) x t)]
      refine sum_congr rfl fun i hi => ?_
      have hi := mem_range.1 hi
      rw [f11, if_neg (by omega), show 2 * m - 2 * (m - (i + 1)) = 2 * (i + 1) by omega]
      rw [show π * ((m - (i + 1) : ℕ) : ℝ) * ((k : ℝ) + 1 / 2) / m = π * (k + 1 / 2) - 2 * (i + 1 : ℕ) * θ by
        rw [Nat.cast_sub (by omega), hθ]; field_simp, cos_half_sub]
    rw [hF]
    simp only [hE]
    rw [sum_odd_even m hm, sum_odd_even m hm]
    have hj : ∀ j : ℕ, π * ((j : ℝ) + 1 / 2) * (k + 1 / 2) / (2 * m : ℕ) = (j + 1 / 2) * θ := by intro j; rw [hθ]; push_cast; field_simp
    simp only [hj]
    have e0 : e11 x 0 = 2 * x 0 := by simp [e11]
    have f0 : f11 (2 * m) x 0 = 2 * x (2 * m - 1) := by simp [f11]
    have l1 : (((2 * m - 1 : ℕ) : ℝ) + 1 / 2) * θ = π * (k + 1 / 2) - θ / 2 := by
      rw [Nat.cast_sub (by omega)]; push_cast; rw [← nθ]; ring
    have lodd : ((-1 : ℝ)) ^ (2 * m - 1) = -1 := Odd.neg_one_pow (Nat.odd_iff.2 (by omega))
    have z0 : ((0 : ℕ) : ℝ) = 0 := Nat.cast_zero
    have zθ : (((0 : ℕ) : ℝ) + 1 / 2) * θ = θ / 2 := by rw [z0]; ring
    have ce : ∀ i : ℕ, e11 x (i + 1) = x (2 * (i + 1) - 1) + x (2 * (i + 1)) := by intro i; rw [e11, if_neg (by omega)]
    simp only [ce, e0, f0, l1, zθ, cos_half_sub, sin_half_sub, lodd]
    have s1 : ∀ i : ℕ, (((2 * (i + 1) - 1 : ℕ) : ℝ) + 1 / 2) * θ = 2 * (i + 1 : ℕ) * θ - θ / 2 := by
      intro i; rw [Nat.cast_sub (by omega)]; push_cast; ring
    have s2 : ∀ i : ℕ, (((2 * (i + 1) : ℕ) : ℝ) + 1 / 2) * θ = 2 * (i + 1 : ℕ) * θ + θ / 2 := by
      intro i; push_cast; ring
    have p1 : ∀ i : ℕ, ((-1 : ℝ)) ^ (2 * (i + 1) - 1) = -1 := fun i => Odd.neg_one_pow (Nat.odd_iff.2 (by omega))
    have p2 : ∀ i : ℕ, ((-1 : ℝ)) ^ (2 * (i + 1)) = 1 := fun i => Even.neg_one_pow (Nat.even_iff.2 (by omega))
    simp only [s1, s2, p1, p2, cos_sub, cos_add, sin_sub, sin_add, pow_zero]
    constructor
    · simp only [mul_add, mul_sum]
      rw [add_add_add_comm, ← sum_add_distrib]
      congr 1
      · linear_combination (2 * sin (θ / 2) * x (2 * m - 1)) * (0 : ℝ) 
      · refine sum_congr rfl fun i _ => ?_
        linear_combination (2 * sin (θ / 2) * sin (2 * ((i + 1 : ℕ) : ℝ) * θ) * (x (2 * (i + 1) - 1) - x (2 * (i + 1)))) * sq
    · simp only [mul_add, mul_sum]
      rw [add_sub_add_comm, ← sum_sub_distrib]
      congr 1
      · ring
      · refine sum_congr rfl fun i _ => ?_
        linear_combination (-2 * cos (θ / 2) * sin (2 * ((i + 1 : ℕ) : ℝ) * θ) * (x (2 * (i + 1) - 1) - x (2 * (i + 1)))) * sq
  unfold z11
  rw [show 2 * m / 2 = m by omega]
  split_ifs with h
  · exact (core k h).1
  · rw [(core (2 * m - 1 - k) (by omega)).2]
    refine sum_congr rfl fun j _ => ?_
    show _ = 2 * cos (π * (j + 1 / 2) * (k + 1 / 2) / (2 * m : ℕ)) * x j
    rw [show π * ((j : ℝ) + 1 / 2) * ((k : ℝ) + 1 / 2) / (2 * m : ℕ) = π * (j + 1 / 2) - π * (j + 1 / 2) * (((2 * m - 1 - k : ℕ) : ℝ) + 1 / 2) / (2 * m : ℕ) by
      rw [Nat.cast_sub (by omega), Nat.cast_sub (by omega)]; push_cast; field_simp; ring, cos_half_sub]

theorem rodft11_math {n : ℕ} (hn : 0 < n) (he : n % 2 = 0) (x y : ℕ → ℝ)
    (hy1 : ∀ m < n / 2, y m = ∑ j ∈ range (n / 2), rK .R2HC00 (n / 2) j m * a11 n (fun j => x (n - 1 - j)) j)
    (hy2 : ∀ m < n / 2, y (n / 2 + m) = ∑ j ∈ range (n / 2), rK .R2HC00 (n / 2) j m * a11 n (fun j => x (n - 1 - j)) (n / 2 + j)) {k : ℕ} (hk : k < n) :
    (-1) ^ k * z11 n y k = ∑ j ∈ range n, rK .RODFT11 n j k * x j := by
  rw [redft11_math hn he _ y hy1 hy2 hk, mul_sum, ← sum_rev]
  refine sum_congr rfl fun j hj => ?_
  have hj := mem_range.1 hj
  rw [rodft11_redft11 hj, show n - 1 - (n - 1 - j) = j by omega]
  ring

/-! ### odd sizes: the 8 × n prime-factor map -/

theorem sum_injOn {n : ℕ} {φ : ℕ → ℕ} (h : ∀ i < n, φ i < n) (hi : ∀ i < n, ∀ j < n, φ i = φ j → i = j) (f : ℕ → ℝ) :
    ∑ i ∈ range n, f (φ i) = ∑ i ∈ range n, f i := by
  have e : (range n).image φ = range n := by
    apply eq_of_subset_of_card_le
    · intro a ha
      obtain ⟨b, hb, rfl⟩ := mem_image.1 ha
      exact mem_range.2 (h b (mem_range.1 hb))
    · rw [card_image_of_injOn]
      intro a ha b hb hab
      exact hi a (mem_range.1 ha) b (mem_range.1 hb) hab
  conv_rhs => rw [← e]
  rw [sum_image]
  intro a ha b hb hab
  exact hi a (mem_range.1 ha) b (mem_range.1 hb) hab

/-- the real-even extension of the input, over a little more than one period -/
noncomputable def x11 (n : ℕ) (x : ℕ → ℝ) (m : ℕ) : ℝ :=
  if m < n then x m else if m < 2 * n then -x (2 * n - m - 1) else if m < 3 * n then -x (m - 2 * n) else if m < 4 * n then x (4 * n - m - 1) else x (m - 4 * n)

/-- the index it comes from -/
def fold11 (n m : ℕ) : ℕ :=
  if m < n then m else if m < 2 * n then 2 * n - m - 1 else if m < 3 * n then m - 2 * n else if m < 4 * n then 4 * n - m - 1 else m - 4 * n

theorem x11_cos {n m : ℕ} (hn : 0 < n) (hm : m < 5 * n) (x : ℕ → ℝ) (k : ℕ) :
    x11 n x m * cos (π * (m + 1 / 2) * (k + 1 / 2) / n) = x (fold11 n m) * cos (π * (fold11 n m + 1 / 2) * (k + 1 / 2) / n) := by
  have hn' : (n : ℝ) ≠ 0 := by exact_mod_cast hn.ne'
  have c2 : ∀ a : ℝ, cos (a + 2 * k * π + π) = - cos a := by
    intro a; rw [Real.cos_add_pi, show a + 2 * (k : ℝ) * π = a + (k : ℝ) * (2 * π) by ring, Real.cos_add_nat_mul_two_pi]
  unfold x11 fold11
  split_ifs with h1 h2 h3 h4
  · rfl
  · rw [show π * ((m : ℝ) + 1 / 2) * (k + 1 / 2) / n = - (π * (((2 * n - m - 1 : ℕ) : ℝ) + 1 / 2) * (k + 1 / 2) / n) + 2 * k * π + π by
      rw [Nat.cast_sub (by omega), Nat.cast_sub (by omega)]; push_cast; field_simp; ring, c2, cos_neg]; ring
  · rw [show π * ((m : ℝ) + 1 / 2) * (k + 1 / 2) / n = (π * (((m - 2 * n : ℕ) : ℝ) + 1 / 2) * (k + 1 / 2) / n) + 2 * k * π + π by
      rw [Nat.cast_sub (by omega)]; push_cast; field_simp; ring, c2]; ring
  · rw [show π * ((m : ℝ) + 1 / 2) * (k + 1 / 2) / n = - (π * (((4 * n - m - 1 : ℕ) : ℝ) + 1 / 2) * (k + 1 / 2) / n) + 2 * k * π + π + 2 * k * π + π by
      rw [Nat.cast_sub (by omega), Nat.cast_sub (by omega)]; push_cast; field_simp; ring, c2, c2, cos_neg]; ring
  · rw [show π * ((m : ℝ) + 1 / 2) * (k + 1 / 2) / n = (π * (((m - 4 * n : ℕ) : ℝ) + 1 / 2) * (k + 1 / 2) / n) + 2 * k * π + π + 2 * k * π + π by
      rw [Nat.cast_sub (by omega)]; push_cast; field_simp; ring, c2, c2]; ring

/-- sign -/
noncomputable def sg (i : ℕ) : ℝ := if i % 2 ≠ 0 then -1 else 1

theorem sg_add_two (i : ℕ) : sg (i + 2) = sg i := by simp [sg]
theorem sg_congr {i j : ℕ} (h : i % 2 = j % 2) : sg i = sg j := by simp [sg, h]
theorem sg_anti {i j : ℕ} (h : i % 2 ≠ j % 2) : sg i = - sg j := by
  unfold sg; split_ifs <;> first | omega | simp

theorem eighths (k : ℕ) : 2 * cos (π * (2 * k + 1) / 4) = √2 * sg ((k + 1) / 2) ∧ 2 * sin (π * (2 * k + 1) / 4) = √2 * sg (k / 2) := by
  obtain ⟨q, r, hr, rfl⟩ : ∃ q r, r < 4 ∧ k = 4 * q + r := ⟨k / 4, k % 4, by omega, by omega⟩
  have e : π * (2 * ((4 * q + r : ℕ) : ℝ) + 1) / 4 = π * (2 * r + 1) / 4 + q * (2 * π) := by push_cast; ring
  rw [e, cos_add_nat_mul_two_pi, sin_add_nat_mul_two_pi]
  have h1 : sg ((4 * q + r + 1) / 2) = sg ((r + 1) / 2) := sg_congr (by omega)
  have h2 : sg ((4 * q + r) / 2) = sg (r / 2) := sg_congr (by omega)
  rw [h1, h2]
  interval_cases r
  · simp [sg]; ring
  · have : π * (2 * ((1 : ℕ) : ℝ) + 1) / 4 = π - π / 4 := by push_cast; ring
    rw [this, cos_pi_sub, sin_pi_sub]; simp [sg]; ring
  · have : π * (2 * ((2 : ℕ) : ℝ) + 1) / 4 = π / 4 + π := by push_cast; ring
    rw [this, cos_add_pi, sin_add_pi]; simp [sg]; ring
  · have : π * (2 * ((3 : ℕ) : ℝ) + 1) / 4 = 2 * π - π / 4 := by push_cast; ring
    rw [this, cos_two_pi_sub, sin_two_pi_sub]; simp [sg]; ring

/-- real part of frequency `2k+1` -/
noncomputable def re11o (n : ℕ) (y : ℕ → ℝ) (k : ℕ) : ℝ :=
  if k = n / 2 then y 0 else if 4 * k + 2 ≤ n then y (2 * k + 1) else if 2 * k + 1 < n then y (n - (2 * k + 1)) else if 4 * k + 2 ≤ 3 * n then y (2 * k + 1 - n) else y (2 * n - (2 * k + 1))
/-- imaginary part of frequency `2k+1` -/
noncomputable def im11o (n : ℕ) (y : ℕ → ℝ) (k : ℕ) : ℝ :=
  if k = n / 2 then 0 else if 4 * k + 2 ≤ n then y (n - (2 * k + 1)) else if 2 * k + 1 < n then -y (2 * k + 1) else if 4 * k + 2 ≤ 3 * n then y (n - (2 * k + 1 - n)) else -y (n - (2 * n - (2 * k + 1)))

/-- Z of re11, odd sizes -/
noncomputable def z11o (n : ℕ) (y : ℕ → ℝ) (k : ℕ) : ℝ := √2 * (sg ((k + 1) / 2) * re11o n y k + sg (k / 2) * im11o n y k)

theorem redft11o_math {n : ℕ} (ho : n % 2 = 1) (x y : ℕ → ℝ)
    (hy : ∀ m < n, y m = ∑ j ∈ range n, rK .R2HC00 n j m * x11 n x (n / 2 + 4 * j)) {k : ℕ} (hk : k < n) :
    z11o n y k = ∑ j ∈ range n, rK .REDFT11 n j k * x j := by
  have hn : 0 < n := by omega
  have hn' : (n : ℝ) ≠ 0 := by exact_mod_cast hn.ne'
  set b : ℕ → ℝ := fun j => x11 n x (n / 2 + 4 * j) with hb
  have lo : ∀ m, 2 * m ≤ n → y m = ∑ j ∈ range n, b j * cos (2 * π * j * m / n) := by
    intro m hm; rw [hy m (by omega)]; exact sum_congr rfl fun j _ => by rw [r2hc_lo j hm, mul_comm]
  have hi : ∀ m, 0 < m → 2 * m < n → y (n - m) = ∑ j ∈ range n, b j * - sin (2 * π * j * m / n) := by
    intro m h0 hm; rw [hy _ (by omega)]; exact sum_congr rfl fun j _ => by rw [r2hc_hi j h0 hm, mul_comm]
  have R : re11o n y k = ∑ j ∈ range n, b j * cos (2 * π * j * (2 * k + 1 : ℕ) / n) := by
    unfold re11o
    split_ifs with h0 h1 h2 h3
    · rw [lo 0 (by omega)]
      refine sum_congr rfl fun j _ => ?_
      rw [show 2 * π * (j : ℝ) * (2 * k + 1 : ℕ) / n = (j : ℝ) * (2 * π) by rw [show 2 * k + 1 = n by omega]; field_simp, Real.cos_nat_mul_two_pi]
      simp
    · rw [lo _ (by omega)]
    · rw [lo _ (by omega)]
      refine sum_congr rfl fun j _ => ?_
      rw [← cos_nat_two_pi_sub j]; congr 2; rw [Nat.cast_sub (by omega)]; field_simp; ring
    · rw [lo _ (by omega)]
      refine sum_congr rfl fun j _ => ?_
      rw [← cos_add_nat_mul_two_pi _ j]; congr 2; rw [Nat.cast_sub (by omega)]; field_simp; ring
    · rw [lo _ (by omega)]
      refine sum_congr rfl fun j _ => ?_
      rw [← cos_nat_two_pi_sub (2 * j)]; congr 2; rw [Nat.cast_sub (by omega)]; push_cast; field_simp; ring
  have M : im11o n y k = ∑ j ∈ range n, b j * - sin (2 * π * j * (2 * k + 1 : ℕ) / n) := by
    unfold im11o
    split_ifs with h0 h1 h2 h3
    · symm
      refine sum_eq_zero fun j _ => ?_
      rw [show 2 * π * (j : ℝ) * (2 * k + 1 : ℕ) / n = (2 * j : ℕ) * π by rw [show 2 * k + 1 = n by omega]; push_cast; field_simp, Real.sin_nat_mul_pi]
      simp
    · rw [hi _ (by omega) (by omega)]
    · rw [show 2 * k + 1 = n - (n - (2 * k + 1)) by omega, hi _ (by omega) (by omega), ← sum_neg_distrib]
      refine sum_congr rfl fun j _ => ?_
      rw [show n - (n - (2 * k + 1)) = 2 * k + 1 by omega]
      have : sin (2 * π * (j : ℝ) * (n - (2 * k + 1) : ℕ) / n) = - sin (2 * π * (j : ℝ) * (2 * k + 1 : ℕ) / n) := by
        rw [← sin_nat_two_pi_sub j]; congr 2; rw [Nat.cast_sub (by omega)]; field_simp
      rw [this]; ring
    · rw [hi _ (by omega) (by omega)]
      refine sum_congr rfl fun j _ => ?_
      rw [← sin_add_nat_mul_two_pi _ j]; congr 3; rw [Nat.cast_sub (by omega)]; field_simp; ring
    · rw [hi _ (by omega) (by omega), ← sum_neg_distrib]
      refine sum_congr rfl fun j _ => ?_
      have : sin (2 * π * (j : ℝ) * (2 * n - (2 * k + 1) : ℕ) / n) = - sin (2 * π * (j : ℝ) * (2 * k + 1 : ℕ) / n) := by
        rw [← sin_nat_two_pi_sub (2 * j)]; congr 2; rw [Nat.cast_sub (by omega)]; push_cast; field_simp
      rw [this]; ring
  have key : ∀ j < n, b j * (2 * cos (π * (2 * k + 1) / 4 + 2 * π * j * (2 * k + 1 : ℕ) / n)) =
      (fun t : ℕ => rK .REDFT11 n t k * x t) (fold11 n (n / 2 + 4 * j)) := by
    intro j hj
    have h := x11_cos (m := n / 2 + 4 * j) hn (by omega) x k
    show _ = 2 * cos (π * (fold11 n (n / 2 + 4 * j) + 1 / 2) * (k + 1 / 2) / n) * x (fold11 n (n / 2 + 4 * j))
    rw [show π * (2 * (k : ℝ) + 1) / 4 + 2 * π * j * (2 * k + 1 : ℕ) / n = π * (((n / 2 + 4 * j : ℕ) : ℝ) + 1 / 2) * (k + 1 / 2) / n by
      obtain ⟨t, ht⟩ : ∃ t, n = 2 * t + 1 := ⟨n / 2, by omega⟩
      have : n / 2 = t := by omega
      rw [this]
      have h2 : (n : ℝ) = 2 * t + 1 := by rw [ht]; push_cast; ring
      have h3 : (t : ℝ) = (n - 1) / 2 := by rw [h2]; ring
      push_cast; rw [h3]; field_simp; ring]
    linear_combination 2 * h
  have tot : ∑ j ∈ range n, b j * (2 * cos (π * (2 * k + 1) / 4 + 2 * π * j * (2 * k + 1 : ℕ) / n)) = ∑ j ∈ range n, rK .REDFT11 n j k * x j := by
    rw [sum_congr rfl fun j hj => key j (mem_range.1 hj)]
    refine sum_injOn (φ := fun j => fold11 n (n / 2 + 4 * j)) ?_ ?_ (fun t : ℕ => rK .REDFT11 n t k * x t)
    · intro i hi; unfold fold11; split_ifs <;> omega
    · intro i hi j hj h
      unfold fold11 at h
      split_ifs at h <;> omega
  rw [← tot, z11o, R, M]
  obtain ⟨c, s⟩ := eighths k
  rw [mul_add, ← mul_assoc, ← mul_assoc, ← c, ← s, mul_sum, mul_sum, ← sum_add_distrib]
  refine sum_congr rfl fun j _ => ?_
  rw [cos_add]; ring

theorem rodft11o_math {n : ℕ} (ho : n % 2 = 1) (x y : ℕ → ℝ)
    (hy : ∀ m < n, y m = ∑ j ∈ range n, rK .R2HC00 n j m * x11 n (fun j => x (n - 1 - j)) (n / 2 + 4 * j)) {k : ℕ} (hk : k < n) :
    (-1) ^ k * z11o n y k = ∑ j ∈ range n, rK .RODFT11 n j k * x j := by
  rw [redft11o_math ho _ y hy hk, mul_sum, ← sum_rev]
  refine sum_congr rfl fun j hj => ?_
  have hj := mem_range.1 hj
  rw [rodft11_redft11 hj, show n - 1 - (n - 1 - j) = j by omega]
  ring

end FFTW.Spec
