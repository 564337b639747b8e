import Verif.Proofs.ApiMany
import Verif.Proofs.Rdft2Rdft
import Verif.Spec.ApiR2c

namespace FFTW.Api
open Tensor Spec Finset

/-! ### twiddles -/

theorem twist_append (s : ℤ) {n j k : List ℕ} (n' j' k' : List ℕ) (hj : j.length = n.length) (hk : k.length = n.length) :
    twist s (n ++ n') (j ++ j') (k ++ k') = twist s n j k * twist s n' j' k' := by
  induction n generalizing j k with
  | nil =>
    obtain rfl := List.length_eq_zero_iff.1 hj
    obtain rfl := List.length_eq_zero_iff.1 hk
    simp [twist]
  | cons n ns ih =>
    obtain ⟨a, as, rfl⟩ : ∃ a as, j = a :: as := by cases j <;> simp_all
    obtain ⟨b, bs, rfl⟩ : ∃ a as, k = a :: as := by cases k <;> simp_all
    simp only [List.cons_append, twist]
    rw [ih (by simpa using hj) (by simpa using hk)]; ring

theorem twist_symm (s : ℤ) (n j k : List ℕ) : twist s n j k = twist s n k j := by
  induction n generalizing j k with
  | nil => simp [twist]
  | cons n ns ih =>
    cases j with
    | nil => cases k <;> simp [twist]
    | cons j js =>
      cases k with
      | nil => simp [twist]
      | cons k ks => rw [twist, twist, ih, mul_comm (j : ℂ)]

theorem star_ω (n m : ℕ) : star (ω n ^ m) = Complex.exp ((1 : ℤ) * (2 * Real.pi * Complex.I) * m / n) := by
  have h := conj_twist (-1) [n] [m] [1]
  simp only [twist, mul_one, Nat.cast_one] at h
  rw [ω_pow_exp]
  rw [show -(-1 : ℤ) = 1 by norm_num] at h
  exact h

theorem gSum_zip_idft {sz : List Dim} {k : List ℕ} (h : k.length = sz.length) (x : ℤ → ℂ) :
    gSum idftK ((tag sz).zip k) x = sumBox (sz.map (·.n)) fun j => twist 1 (sz.map (·.n)) j k * x (dot (sz.map (·.is)) j) := by
  induction sz generalizing k x with
  | nil => simp [tag, gSum, sumBox, twist, dot_nil]
  | cons d sz ih =>
    obtain ⟨k, ks, rfl⟩ : ∃ j js, k = j :: js := by cases k <;> simp_all
    have e : (tag (d :: sz)).zip (k :: ks) = ((d, ()), k) :: (tag sz).zip ks := rfl
    rw [e, gSum, List.map_cons, sumBox]
    refine Finset.sum_congr rfl fun j _ => ?_
    rw [ih (by simpa using h), sumBox_mul]
    congr 1; funext js
    rw [twist, idftK, star_ω, List.map_cons, dot_cons]
    push_cast
    rw [mul_assoc, mul_comm (d.is) (j : ℤ)]; ring_nf

/-! ### opposite frequencies -/

theorem oppose_cons (n k : ℕ) (ns ks : List ℕ) : oppose (n :: ns) (k :: ks) = (n - k) % n :: oppose ns ks := rfl

theorem box_oppose {n k : List ℕ} (h : Box n k) : Box n (oppose n k) := by
  induction n generalizing k with
  | nil => exact box_nil.2 rfl
  | cons n ns ih =>
    obtain ⟨a, as, h1, h2, rfl⟩ := box_cons.1 h
    exact box_cons.2 ⟨_, _, Nat.mod_lt _ (by omega), ih h2, rfl⟩

theorem sum_oppose {V : Type} [AddCommMonoid V] (n : ℕ) (f : ℕ → V) : ∑ k ∈ range n, f ((n - k) % n) = ∑ k ∈ range n, f k := by
  have inv : ∀ k < n, (n - (n - k) % n) % n = k := by
    intro k hk
    rcases Nat.eq_zero_or_pos k with rfl | h0
    · simp
    · rw [Nat.mod_eq_of_lt (show n - k < n by omega), show n - (n - k) = k by omega, Nat.mod_eq_of_lt hk]
  refine Finset.sum_nbij' (fun k => (n - k) % n) (fun k => (n - k) % n) ?_ ?_ ?_ ?_ ?_
  · intro k hk; exact mem_range.2 (Nat.mod_lt _ (by have := mem_range.1 hk; omega))
  · intro k hk; exact mem_range.2 (Nat.mod_lt _ (by have := mem_range.1 hk; omega))
  · intro k hk; exact inv k (mem_range.1 hk)
  · intro k hk; exact inv k (mem_range.1 hk)
  · intro k hk; rfl

theorem sumBox_oppose {V : Type} [AddCommMonoid V] (n : List ℕ) (f : List ℕ → V) : sumBox n (fun k => f (oppose n k)) = sumBox n f := by
  induction n generalizing f with
  | nil => rfl
  | cons n ns ih =>
    simp only [sumBox, oppose_cons]
    rw [← sum_oppose n fun k => sumBox ns fun ks => f (k :: ks)]
    exact Finset.sum_congr rfl fun k _ => ih fun ks => f ((n - k) % n :: ks)

theorem exp_oppose (s : ℤ) {n k : ℕ} (j : ℕ) (hk : k < n) : Complex.exp (s * (2 * Real.pi * Complex.I) * (((n - k) % n : ℕ) * j) / n) =
    Complex.exp ((-s : ℤ) * (2 * Real.pi * Complex.I) * (k * j) / n) := by
  have hn : (n : ℂ) ≠ 0 := by exact_mod_cast (by omega : n ≠ 0)
  rcases Nat.eq_zero_or_pos k with rfl | h0
  · simp
  · rw [Nat.mod_eq_of_lt (show n - k < n by omega), Complex.exp_eq_exp_iff_exists_int]
    refine ⟨s * j, ?_⟩
    push_cast [Nat.cast_sub hk.le]
    field_simp; ring

theorem twist_oppose (s : ℤ) {n k : List ℕ} (j : List ℕ) (h : Box n k) : twist s n (oppose n k) j = twist (-s) n k j := by
  induction n generalizing k j with
  | nil => simp [twist]
  | cons n ns ih =>
    obtain ⟨a, as, h1, h2, rfl⟩ := box_cons.1 h
    cases j with
    | nil => simp [twist]
    | cons j js => rw [oppose_cons, twist, twist, ih js h2, exp_oppose s j h1]

theorem conj_sumBox (n : List ℕ) (f : List ℕ → ℂ) : (starRingEnd ℂ) (sumBox n f) = sumBox n fun j => (starRingEnd ℂ) (f j) := by
  induction n generalizing f with
  | nil => rfl
  | cons n ns ih => simp only [sumBox, map_sum, ih]

/-! ### the two halves of the spectrum -/

theorem sum_halves (m : ℕ) (hm : 0 < m) (g : ℕ → ℝ) :
    ∑ q ∈ range m, (if q ≤ m / 2 then g q else g (m - q)) = ∑ p ∈ range (m / 2 + 1), (mult m p : ℝ) * g p := by
  have h1 : ∑ q ∈ range m, (if q ≤ m / 2 then g q else g (m - q)) =
      ∑ q ∈ range (m / 2 + 1), g q + ∑ q ∈ Ico (m / 2 + 1) m, g (m - q) := by
    rw [range_eq_Ico, ← Finset.sum_Ico_consecutive _ (Nat.zero_le (m / 2 + 1)) (show m / 2 + 1 ≤ m by omega), range_eq_Ico]
    congr 1
    · refine Finset.sum_congr rfl fun q hq => ?_
      rw [if_pos]; have := mem_Ico.1 hq; omega
    · refine Finset.sum_congr rfl fun q hq => ?_
      rw [if_neg]; have := mem_Ico.1 hq; omega
  rw [h1, Finset.sum_Ico_reflect _ _ (by omega), show m + 1 - m = 1 by omega, show m + 1 - (m / 2 + 1) = m - m / 2 by omega]
  have h2 : ∑ q ∈ Ico 1 (m - m / 2), g q = ∑ p ∈ range (m / 2 + 1), if 0 < p ∧ 2 * p < m then g p else 0 := by
    rw [← Finset.sum_filter]
    refine Finset.sum_congr ?_ fun _ _ => rfl
    ext p
    simp only [mem_Ico, mem_filter, mem_range]; omega
  rw [h2, ← Finset.sum_add_distrib]
  refine Finset.sum_congr rfl fun p hp => ?_
  have := mem_range.1 hp
  unfold mult
  by_cases h : 0 < p ∧ 2 * p < m
  · rw [if_pos h, if_neg (by omega)]; push_cast; ring
  · rw [if_neg h, if_pos (by omega)]; push_cast; ring

theorem star_ω_reflect {m q : ℕ} (i : ℕ) (hq : q ≤ m) (hm : 0 < m) : (starRingEnd ℂ) (star (ω m ^ (i * (m - q)))) = star (ω m ^ (i * q)) := by
  have h1 : ω m ^ (i * (m - q)) * ω m ^ (i * q) = 1 := by
    rw [← pow_add, ← Nat.mul_add, Nat.sub_add_cancel hq, mul_comm, pow_mul, ω_pow_self m hm.ne', one_pow]
  have h2 : ω m ^ (i * q) * star (ω m ^ (i * q)) = 1 := by
    have : (starRingEnd ℂ) (ω m ^ (i * q)) = star (ω m ^ (i * q)) := rfl
    rw [← this, Complex.mul_conj, ω_pow_exp]
    rw [Complex.normSq_eq_norm_sq]
    rw [show ((-1 : ℤ) : ℂ) * (2 * Real.pi * Complex.I) * ((i * q : ℕ) : ℂ) / (m : ℂ) = ((-(2 * Real.pi * (i * q : ℕ) / m) : ℝ) : ℂ) * Complex.I by push_cast; ring]
    rw [Complex.norm_exp_ofReal_mul_I]; simp
  rw [show (starRingEnd ℂ) (star (ω m ^ (i * (m - q)))) = ω m ^ (i * (m - q)) from star_star _]
  calc ω m ^ (i * (m - q)) = ω m ^ (i * (m - q)) * (ω m ^ (i * q) * star (ω m ^ (i * q))) := by rw [h2, mul_one]
    _ = star (ω m ^ (i * q)) := by rw [← mul_assoc, h1, one_mul]

/-- the rows of a complex-to-real transform sum over the whole Hermitian spectrum -/
theorem c2r_math {n : List ℕ} {m : ℕ} (hm : 0 < m) (X : List ℕ → ℕ → ℂ) {j : List ℕ} (hj : Box n j) (i : ℕ) :
    (sumBox n fun k => twist 1 n k j * ∑ p ∈ range (m / 2 + 1), (mult m p : ℂ) * star (ω m ^ (i * p)) * X k p).re =
      (sumBox n fun k => ∑ q ∈ range m, twist 1 (n ++ [m]) (k ++ [q]) (j ++ [i]) * hermitian n m X k q).re := by
  set Z : ℕ → ℂ := fun p => sumBox n fun k => twist 1 n k j * X k p with hZ
  have e1 : (sumBox n fun k => twist 1 n k j * ∑ p ∈ range (m / 2 + 1), (mult m p : ℂ) * star (ω m ^ (i * p)) * X k p) =
      ∑ p ∈ range (m / 2 + 1), (mult m p : ℂ) * (star (ω m ^ (i * p)) * Z p) := by
    rw [← sumBox_comm_mul]
    refine Finset.sum_congr rfl fun p _ => ?_
    rw [hZ]; dsimp only
    rw [← mul_assoc, sumBox_mul]
    refine sumBox_congr fun k _ => ?_
    ring
  have e2 : (sumBox n fun k => ∑ q ∈ range m, twist 1 (n ++ [m]) (k ++ [q]) (j ++ [i]) * hermitian n m X k q) =
      ∑ q ∈ range m, if q ≤ m / 2 then star (ω m ^ (i * q)) * Z q else (starRingEnd ℂ) (star (ω m ^ (i * (m - q))) * Z (m - q)) := by
    rw [sumBox_comm]
    refine Finset.sum_congr rfl fun q hq => ?_
    have hqm := mem_range.1 hq
    have tw : ∀ k, Box n k → twist 1 (n ++ [m]) (k ++ [q]) (j ++ [i]) = star (ω m ^ (i * q)) * twist 1 n k j := by
      intro k hk
      rw [twist_append 1 _ _ _ (box_length hk) (box_length hj), star_ω, mul_comm]
      congr 1
      simp only [twist, mul_one]
      push_cast; ring_nf
    split
    · rename_i h
      rw [hZ]; dsimp only
      rw [sumBox_mul]
      refine sumBox_congr fun k hk => ?_
      rw [tw k hk, hermitian, if_pos h]; ring
    · rename_i h
      rw [map_mul, star_ω_reflect i (by omega) hm, hZ]; dsimp only
      rw [conj_sumBox, ← sumBox_oppose n (fun k => (starRingEnd ℂ) (twist 1 n k j * X k (m - q))), sumBox_mul]
      refine sumBox_congr fun k hk => ?_
      rw [tw k hk, hermitian, if_neg h, map_mul, conj_twist, twist_oppose _ _ hk, neg_neg]; ring
  rw [e1, e2, Complex.re_sum, Complex.re_sum]
  have := sum_halves m hm fun p => (star (ω m ^ (i * p)) * Z p).re
  rw [show (∑ p ∈ range (m / 2 + 1), ((mult m p : ℂ) * (star (ω m ^ (i * p)) * Z p)).re) = ∑ p ∈ range (m / 2 + 1), (mult m p : ℝ) * (star (ω m ^ (i * p)) * Z p).re from
    Finset.sum_congr rfl fun p _ => by rw [← Complex.ofReal_natCast, Complex.re_ofReal_mul], ← this]
  refine Finset.sum_congr rfl fun q _ => ?_
  split
  · rfl
  · rw [Complex.conj_re]

/-- the spectrum of real data is Hermitian -/
theorem hermitian_r2c {n : List ℕ} {m : ℕ} (x : List ℕ → ℕ → ℝ) {k : List ℕ} (hk : Box n k) {q : ℕ} (hq : q < m) :
    hermitian n m (fun k q => sumBox n fun j => ∑ i ∈ range m, twist (-1) (n ++ [m]) (j ++ [i]) (k ++ [q]) * (x j i : ℂ)) k q =
      sumBox n fun j => ∑ i ∈ range m, twist (-1) (n ++ [m]) (j ++ [i]) (k ++ [q]) * (x j i : ℂ) := by
  unfold hermitian
  split
  · rfl
  · rename_i h
    rw [conj_sumBox]
    refine sumBox_congr fun j hj => ?_
    rw [map_sum]
    refine Finset.sum_congr rfl fun i _ => ?_
    rw [map_mul, conj_twist, Complex.conj_ofReal]
    congr 1
    have hb : Box (n ++ [m]) (k ++ [q]) := box_append.2 ⟨k, [q], hk, box_cons.2 ⟨q, [], hq, box_nil.2 rfl, rfl⟩, rfl⟩
    have := twist_oppose 1 (j ++ [i]) hb
    rw [twist_symm (-1), ← this]
    rw [twist_symm (- -1), neg_neg]
    congr 1
    have : oppose (n ++ [m]) (k ++ [q]) = oppose n k ++ [(m - q) % m] := by
      unfold oppose
      rw [List.zipWith_append (box_length hk).symm]; rfl
    rw [this, Nat.mod_eq_of_lt (by omega)]

end FFTW.Api
