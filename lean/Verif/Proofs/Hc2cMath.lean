import Verif.Spec.CodeletHc2c
import Verif.Proofs.Hc2hcDirect
import Verif.Proofs.Direct2

/-! # The algebra of Cooley-Tukey between real and complex arrays -/

namespace FFTW.Spec
open Finset Genfft

local notation "cj" => starRingEnd ℂ

/-- the halfcomplex sequence that the arrays hold -/
def hcOf (n : ℕ) (S : ℕ → ℕ → ℝ) (p : ℕ) : ℝ := if 2 * p ≤ n then S 0 p else S 1 (n - p)

theorem hc2cSpec_eq {n f : ℕ} (S : ℕ → ℕ → ℝ) (hf : f < n) : hc2cSpec n S f = unpackHc n (hcOf n S) f := by
  unfold hc2cSpec unpackHc hcOf
  split_ifs <;> first | rfl | (exfalso; omega) | (rw [show n - (n - f) = f by omega])

theorem hc2cBwd_eq {r m k : ℕ} (S : ℕ → ℕ → ℝ) (b : ℕ) (hk : k < m) : hc2cBwd r m S b k = hcRow r m b (hcOf (r * m) S) k := by
  unfold hc2cBwd hcRow
  refine sum_congr rfl fun t ht => ?_
  rw [hc2cSpec_eq S]
  calc k + t * m < m + t * m := by omega
    _ = (t + 1) * m := by ring
    _ ≤ r * m := Nat.mul_le_mul_right _ (mem_range.1 ht)

theorem part_ofReal {x : ℝ} {e : ℕ} (he : e = 0) : part e (x : ℂ) = x := by simp [part, he]

theorem hc2cRow_self (via : Hc2cKind) {m l : ℕ} (S : ℕ → ℕ → ℝ) {b : ℕ} (h : l = 0 ∨ 2 * l = m) :
    hc2cRow via m S b l = (S (b % 2) (b / 2 * m + l) : ℂ) := by
  have e : (m - l) % m = l := by
    rcases h with rfl | h
    · simp
    · rw [show m - l = l by omega]
      rcases Nat.eq_zero_or_pos m with h0 | h0
      · subst h0; simp
      · exact Nat.mod_eq_of_lt (by omega)
  cases via with
  | viaRdft =>
    simp only [hc2cRow, unpackHc, if_pos h]
    apply Complex.ext <;> simp
  | viaDft =>
    simp only [hc2cRow, e]
    rcases Nat.mod_two_eq_zero_or_one b with hb | hb
    · rw [if_pos hb, hb]
      apply Complex.ext <;> simp
    · rw [if_neg (by omega), hb]
      rw [div_eq_iff (by simp)]
      apply Complex.ext <;> simp; ring

theorem hc2cRow_herm (via : Hc2cKind) {m k : ℕ} (S : ℕ → ℕ → ℝ) (b : ℕ) (h0 : 0 < k) (hk : k < m) :
    hc2cRow via m S b (m - k) = cj (hc2cRow via m S b k) := by
  cases via with
  | viaRdft => simp only [hc2cRow]; exact unpack_herm m _ h0 hk
  | viaDft =>
    simp only [hc2cRow]
    rw [Nat.mod_eq_of_lt (show m - k < m by omega), show m - (m - k) = k by omega, Nat.mod_eq_of_lt hk]
    split
    · rw [map_div₀, map_add, Complex.conj_conj, add_comm]
      congr 1
      exact (Complex.conj_ofNat 2).symm
    · rw [map_div₀, map_sub, Complex.conj_conj, map_mul, Complex.conj_I, show cj (2 : ℂ) = 2 from Complex.conj_ofNat 2, mul_neg, div_neg, ← neg_div, neg_sub]

/-- the rows as one array of halfcomplex sequences -/
noncomputable def hcRows (via : Hc2cKind) (m : ℕ) (S : ℕ → ℕ → ℝ) (p : ℕ) : ℝ := packHc m (hc2cRow via m S (p / m)) (p % m)

theorem hcRows_unpack (via : Hc2cKind) {m k : ℕ} (S : ℕ → ℕ → ℝ) (b : ℕ) (hk : k < m) :
    unpackHc m (fun a => hcRows via m S (b * m + a)) k = hc2cRow via m S b k := by
  rw [unpack_congr (w := packHc m (hc2cRow via m S b)) _ hk, unpack_pack _ _ hk]
  · rw [hc2cRow_self via S (Or.inl rfl)]; simp
  · intro q h0 hq; exact hc2cRow_herm via S b h0 hq
  · intro j hj
    rw [hcRows, hc_mod b hj, mul_comm b m, Nat.mul_add_div (by omega), Nat.div_eq_of_lt hj, add_zero]

theorem hcStep_fwd (via : Hc2cKind) {r m p : ℕ} (S : ℕ → ℕ → ℝ) (hm : m ≠ 0) (hp : p < r * m) :
    hcStep true r m (hcRows via m S) p = packHc (r * m) (hc2cFwd via r m S) p := by
  rw [hcStep, if_pos rfl]
  apply pack_congr _ hp
  intro q _
  unfold hc2cFwd
  exact sum_congr rfl fun b _ => by rw [hcRows_unpack via S b (Nat.mod_lt _ (by omega))]

theorem hc2cFwd_herm (via : Hc2cKind) {r m l k : ℕ} (S : ℕ → ℕ → ℝ) (hl : 0 < l) (hlm : l < m) (hk : k < r) :
    hc2cFwd via r m S ((r - 1 - k) * m + (m - l)) = cj (hc2cFwd via r m S (k * m + l)) := by
  unfold hc2cFwd
  rw [map_sum]
  refine sum_congr rfl fun b _ => ?_
  rw [hc_mod _ (show m - l < m by omega), hc_mod _ hlm, hc2cRow_herm via S b hl hlm, map_mul]
  congr 1
  apply ω_pow_conj _ _ (Nat.mul_ne_zero (by omega) (by omega))
  rw [← mul_add, ← hc_refl hlm hk]
  have : k * m + l ≤ r * m := by
    calc k * m + l ≤ k * m + m := by omega
      _ = (k + 1) * m := by ring
      _ ≤ r * m := Nat.mul_le_mul_right _ hk
  rw [show k * m + l + (r * m - (k * m + l)) = r * m by omega, Nat.mul_mod_left]

/-- column 0, forward -/
theorem hc2cFwd_zero (via : Hc2cKind) {r m : ℕ} (S : ℕ → ℕ → ℝ) (k : ℕ) (hm : m ≠ 0) :
    hc2cFwd via r m S (k * m) = ∑ b ∈ range r, ω r ^ (b * k) * (S (b % 2) (b / 2 * m) : ℂ) := by
  unfold hc2cFwd
  refine sum_congr rfl fun b _ => ?_
  rw [Nat.mul_mod_left, hc2cRow_self via S (Or.inl rfl), add_zero, show b * (k * m) = m * (b * k) by ring, mul_comm r m, ω_mul_pow m r _ hm]

/-- the middle column, forward -/
theorem hc2cFwd_mid (via : Hc2cKind) {r m l t : ℕ} (S : ℕ → ℕ → ℝ) (hr : r % 2 = 0) (hl : 0 < l) (hm : 2 * l = m) (ht : t < r) :
    part (t % 2) (hc2cFwd via r m S (t / 2 * m + l)) = ∑ j ∈ range r, shiftK true r j t * S (j % 2) (j / 2 * m + l) := by
  have hk : shiftIx r t < r := shiftIx_lt ht
  have h1 := hcStep_mid true (show r ≠ 0 by omega) hm hl (hcRows via m S) hk
  have hlm : l < m := by omega
  have hp : shiftIx r t * m + l < r * m := by
    calc shiftIx r t * m + l < shiftIx r t * m + m := by omega
      _ = (shiftIx r t + 1) * m := by ring
      _ ≤ r * m := Nat.mul_le_mul_right _ hk
  rw [hcStep_fwd via S (by omega) hp] at h1
  have h2 : ∀ j, hcRows via m S (j * m + l) = S (j % 2) (j / 2 * m + l) := by
    intro j
    rw [hcRows, hc_mod j hlm, mul_comm j m, Nat.mul_add_div (by omega), Nat.div_eq_of_lt hlm, add_zero, packHc, if_pos (by omega), hc2cRow_self via S (Or.inr hm),
      Complex.ofReal_re]
  simp only [h2, if_true] at h1
  simp only [shiftK, if_true]
  rw [← h1]
  unfold packHc
  rcases Nat.mod_two_eq_zero_or_one t with h0 | h0
  · have e : shiftIx r t = t / 2 := by rw [shiftIx, if_pos h0]
    rw [e, if_pos ((hc_half _ (by omega) hl).2 (by omega)), h0]; rfl
  · have e : shiftIx r t = r - 1 - t / 2 := by rw [shiftIx, if_neg (by omega)]
    rw [if_neg (by rw [hc_half _ (by omega) hl]; omega), hc_refl hlm hk, e, h0, show r - 1 - (r - 1 - t / 2) = t / 2 by omega, show m - l = l by omega]; rfl

theorem hc2cBwd_real {r m l : ℕ} (S : ℕ → ℕ → ℝ) (b : ℕ) (hm : m ≠ 0) (h : l = 0 ∨ 2 * l = m) : (hc2cBwd r m S b l).im = 0 := by
  rw [hc2cBwd_eq S b (by omega)]
  rcases h with rfl | h
  · exact hcRow_zero r m b hm _
  · have := hcRow_herm r m b (hcOf (r * m) S) (show 0 < l by omega) (show l < m by omega)
    rw [show m - l = l by omega] at this
    have := congrArg Complex.im this
    simp at this
    linarith

theorem hc2cStep_self (via : Hc2cKind) {r m l e q : ℕ} (S : ℕ → ℕ → ℝ) (he : e < 2) (hm : m ≠ 0) (h : l = 0 ∨ 2 * l = m) :
    hc2cStep via false r m S e (q * m + l) = hcStep false r m (hcOf (r * m) S) ((2 * q + e) * m + l) := by
  have hlm : l < m := by omega
  have e1 : (q * m + l) / m = q := by rw [mul_comm, Nat.mul_add_div (by omega), Nat.div_eq_of_lt hlm, add_zero]
  rw [hcStep_row r m _ hlm, packHc, if_pos (by omega), ← hc2cBwd_eq S _ hlm]
  simp only [hc2cStep, Bool.false_eq_true, if_false, e1, hc_mod q hlm]
  cases via with
  | viaRdft => simp only [packHc]; rw [if_pos (by omega)]
  | viaDft =>
    have h0 := hc2cBwd_real (r := r) S (2 * q) hm h
    have h1 := hc2cBwd_real (r := r) S (2 * q + 1) hm h
    rcases (by omega : e = 0 ∨ e = 1) with rfl | rfl
    · simp [part, h1]
    · simp [part, h0]

/-- column 0, backward -/
theorem hc2cBwd_zero (via : Hc2cKind) {r m t : ℕ} (S : ℕ → ℕ → ℝ) (hm : m ≠ 0) (ht : t < r) :
    hc2cStep via false r m S (t % 2) (t / 2 * m) = ∑ j ∈ range r, rK .HC2R00 r j t * chv r (fun i => S (i % 2) (i / 2 * m)) j := by
  have h1 := hc2cStep_self via (r := r) (l := 0) (q := t / 2) S (Nat.mod_lt t (by omega)) hm (Or.inl rfl)
  rw [add_zero, add_zero, show 2 * (t / 2) + t % 2 = t by omega, hcStep_zero false (by omega) hm _ ht] at h1
  rw [h1]
  refine sum_congr rfl fun j hj => ?_
  have hj := mem_range.1 hj
  simp only [Bool.false_eq_true, if_false]
  congr 1
  have e0 : 2 * (j * m) ≤ r * m ↔ 2 * j ≤ r := by
    rw [← mul_assoc]; exact Nat.mul_le_mul_right_iff (by omega)
  unfold hcOf chv
  by_cases h : 2 * j ≤ r
  · rw [if_pos (e0.2 h), if_pos h]
    simp only []
    rw [show 2 * j % 2 = 0 by omega, show 2 * j / 2 = j by omega]
  · rw [if_neg (fun h' => h (e0.1 h')), if_neg h, ← Nat.sub_mul]
    simp only []
    rw [show (2 * (r - j) + 1) % 2 = 1 by omega, show (2 * (r - j) + 1) / 2 = r - j by omega]

/-- the middle column, backward -/
theorem hc2cBwd_mid (via : Hc2cKind) {r m l t : ℕ} (S : ℕ → ℕ → ℝ) (hr : r % 2 = 0) (hl : 0 < l) (hm : 2 * l = m) (ht : t < r) :
    hc2cStep via false r m S (t % 2) (t / 2 * m + l) = ∑ j ∈ range r, shiftK false r j t * S (j % 2) (j / 2 * m + l) := by
  have h1 := hc2cStep_self via (r := r) (l := l) (q := t / 2) S (Nat.mod_lt t (by omega)) (by omega) (Or.inr hm)
  rw [show 2 * (t / 2) + t % 2 = t by omega, hcStep_mid false (by omega) hm hl _ ht] at h1
  rw [h1, ← sum_shiftIx]
  refine sum_congr rfl fun j hj => ?_
  have hj := mem_range.1 hj
  simp only [Bool.false_eq_true, if_false, shiftK]
  congr 1
  have hlm : l < m := by omega
  unfold hcOf
  rcases Nat.mod_two_eq_zero_or_one j with h0 | h0
  · have e : shiftIx r j = j / 2 := by rw [shiftIx, if_pos h0]
    rw [e, if_pos ((hc_half _ (by omega) hl).2 (by omega)), h0]
  · have e : shiftIx r j = r - 1 - j / 2 := by rw [shiftIx, if_neg (by omega)]
    rw [if_neg (by rw [hc_half _ (by omega) hl, e]; omega), hc_refl hlm (shiftIx_lt hj), e, h0, show r - 1 - (r - 1 - j / 2) = j / 2 by omega, show m - l = l by omega]

/-- the numbers of column `l` -/
def colOf (m l : ℕ) (S : ℕ → ℕ → ℝ) (s e q : ℕ) : ℝ := S e (q * m + if s = 0 then l else m - l)

theorem colRow_eq (via : Hc2cKind) {m l : ℕ} (S : ℕ → ℕ → ℝ) (b : ℕ) (hl : 0 < l) (hm : 2 * l < m) :
    Rdft2S.colRow via (colOf m l S) b = hc2cRow via m S b l := by
  cases via with
  | viaRdft =>
    simp only [Rdft2S.colRow, hc2cRow, colOf, unpackHc, if_true, if_neg (show ¬ (1 : ℕ) = 0 by omega)]
    rw [if_neg (by omega), if_pos hm]
  | viaDft =>
    simp only [Rdft2S.colRow, hc2cRow, colOf, if_true, if_neg (show ¬ (1 : ℕ) = 0 by omega)]
    rw [Nat.mod_eq_of_lt (show m - l < m by omega)]

theorem colSpec_eq {r m l t : ℕ} (S : ℕ → ℕ → ℝ) (hl : 0 < l) (hm : 2 * l < m) (ht : t < r) :
    Rdft2S.colSpec r (colOf m l S) t = hc2cSpec (r * m) S (t * m + l) := by
  have h1 := hc_half' (r := r) t hm hl
  have h2 := hc_half (r := r) t hm.le hl
  simp only [Rdft2S.colSpec, hc2cSpec, colOf, if_true, if_neg (show ¬ (1 : ℕ) = 0 by omega)]
  by_cases h : 2 * t < r
  · rw [if_pos h, if_neg (by have := h1.2 h; omega), if_pos (h1.2 h)]
  · rw [if_neg h, if_neg (by intro hh; rcases hh with hh | hh; omega; exact h (h2.1 (by omega))), if_neg (fun hh => h (h1.1 hh)), hc_refl (by omega) ht]

/-- a column, forward -/
theorem hc2cStep_col_fwd (via : Hc2cKind) {r m l : ℕ} (S : ℕ → ℕ → ℝ) (w : ℕ → ℕ → ℕ → ℝ) (hr : r % 2 = 0) (hl : 0 < l) (hm : 2 * l < m)
    (h : ∀ t < r, Rdft2S.colSpec r w t = ∑ b ∈ range r, ω (r * m) ^ (b * (t * m + l)) * Rdft2S.colRow via (colOf m l S) b)
    {s e q : ℕ} (hs : s < 2) (he : e < 2) (hq : q < r / 2) : w s e q = hc2cStep via true r m S e (q * m + if s = 0 then l else m - l) := by
  have h' : ∀ t < r, Rdft2S.colSpec r w t = hc2cFwd via r m S (t * m + l) := by
    intro t ht
    rw [h t ht, hc2cFwd]
    exact sum_congr rfl fun b _ => by rw [colRow_eq via S b hl hm, hc_mod t (by omega)]
  simp only [hc2cStep, if_true]
  rcases (by omega : s = 0 ∨ s = 1) with rfl | rfl
  · rw [if_pos rfl, ← h' q (by omega), Rdft2S.colSpec, if_pos (by omega)]
    rcases (by omega : e = 0 ∨ e = 1) with rfl | rfl <;> simp [part]
  · rw [if_neg (by omega)]
    have := hc2cFwd_herm via S hl (show l < m by omega) (show r - 1 - q < r by omega)
    rw [show r - 1 - (r - 1 - q) = q by omega, ← h' _ (by omega), Rdft2S.colSpec, if_neg (by omega), show r - 1 - (r - 1 - q) = q by omega] at this
    rw [this]
    rcases (by omega : e = 0 ∨ e = 1) with rfl | rfl <;> simp [part]

/-- a column, backward -/
theorem hc2cStep_col_bwd (via : Hc2cKind) {r m l : ℕ} (S : ℕ → ℕ → ℝ) (w : ℕ → ℕ → ℕ → ℝ) (hr : r % 2 = 0) (hl : 0 < l) (hm : 2 * l < m)
    (h : ∀ b < r, Rdft2S.colRow via w b = ∑ t ∈ range r, cj (ω (r * m)) ^ (b * (t * m + l)) * Rdft2S.colSpec r (colOf m l S) t)
    {s e q : ℕ} (hs : s < 2) (he : e < 2) (hq : q < r / 2) : w s e q = hc2cStep via false r m S e (q * m + if s = 0 then l else m - l) := by
  have h' : ∀ b < r, Rdft2S.colRow via w b = hc2cBwd r m S b l := by
    intro b hb
    rw [h b hb, hc2cBwd]
    exact sum_congr rfl fun t ht => by rw [colSpec_eq S hl hm (mem_range.1 ht), add_comm l]
  have hx : (if s = 0 then l else m - l) < m := by split <;> omega
  have e1 : (q * m + if s = 0 then l else m - l) / m = q := by rw [mul_comm, Nat.mul_add_div (by omega), Nat.div_eq_of_lt hx, add_zero]
  simp only [hc2cStep, Bool.false_eq_true, if_false, e1, hc_mod q hx]
  cases via with
  | viaRdft =>
    simp only
    have h2 := h' (2 * q + e) (by omega)
    simp only [Rdft2S.colRow] at h2
    rw [show (2 * q + e) % 2 = e by omega, show (2 * q + e) / 2 = q by omega] at h2
    unfold packHc
    rcases (by omega : s = 0 ∨ s = 1) with rfl | rfl
    · rw [if_pos rfl, if_pos (by omega), ← h2]
    · rw [if_neg (show ¬ (1 : ℕ) = 0 by omega), if_neg (by omega), show m - (m - l) = l by omega, ← h2]
  | viaDft =>
    simp only
    have h2 := h' (2 * q) (by omega)
    have h3 := h' (2 * q + 1) (by omega)
    simp only [Rdft2S.colRow] at h2 h3
    rw [if_pos (by omega), show 2 * q / 2 = q by omega] at h2
    rw [if_neg (by omega), show (2 * q + 1) / 2 = q by omega] at h3
    rcases (by omega : s = 0 ∨ s = 1) with rfl | rfl
    · rw [if_pos rfl, ← h2, ← h3]
      have : ∀ z z' : ℂ, (z + cj z') / 2 + Complex.I * ((z - cj z') / (2 * Complex.I)) = z := by
        intro z z'; field_simp; ring
      rw [this]
      rcases (by omega : e = 0 ∨ e = 1) with rfl | rfl <;> simp [part]
    · rw [if_neg (by omega)]
      have hh : ∀ b, hc2cBwd r m S b (m - l) = cj (hc2cBwd r m S b l) := by
        intro b
        rw [hc2cBwd_eq S b (by omega), hc2cBwd_eq S b (by omega)]
        exact hcRow_herm r m b _ hl (by omega)
      rw [hh, hh, ← h2, ← h3]
      have : ∀ z z' : ℂ, cj ((z + cj z') / 2) + Complex.I * cj ((z - cj z') / (2 * Complex.I)) = z' := by
        intro z z'
        rw [map_div₀, map_div₀, map_add, map_sub, map_mul, Complex.conj_conj, Complex.conj_I, show cj (2 : ℂ) = 2 from Complex.conj_ofNat 2]
        field_simp; ring
      rw [this]
      rcases (by omega : e = 0 ∨ e = 1) with rfl | rfl <;> simp [part]

/-- the step of a column looks at this column only -/
theorem hc2cStep_congr (via : Hc2cKind) (fwd : Bool) {r m e f : ℕ} {S S' : ℕ → ℕ → ℝ} (hr : r % 2 = 0) (hm : m ≠ 0)
    (h : ∀ e' < 2, ∀ f', 2 * f' ≤ r * m → hcCol m f' = hcCol m f → S e' f' = S' e' f') : hc2cStep via fwd r m S e f = hc2cStep via fwd r m S' e f := by
  have hk : f % m < m := Nat.mod_lt _ (by omega)
  cases fwd
  · have hB : ∀ b k, k < m → min k (m - k) = hcCol m f → hc2cBwd r m S b k = hc2cBwd r m S' b k := by
      intro b k hk hc
      unfold hc2cBwd
      refine sum_congr rfl fun t ht => ?_
      congr 1
      have ht := mem_range.1 ht
      have e0 : (k + t * m) % m = k := by rw [add_comm]; exact hc_mod t hk
      have hlt : k + t * m < r * m := by
        calc k + t * m < m + t * m := by omega
          _ = (t + 1) * m := by ring
          _ ≤ r * m := Nat.mul_le_mul_right _ ht
      have c1 : hcCol m (k + t * m) = hcCol m f := by rw [hcCol, e0, hc]
      have c2 : hcCol m (r * m - (k + t * m)) = hcCol m f := by
        rw [add_comm k, hc_refl hk ht]
        rcases Nat.eq_zero_or_pos k with h0 | h0
        · subst h0
          rw [hcCol, show (r - 1 - t) * m + (m - 0) = (r - 1 - t + 1) * m + 0 by ring_nf; omega, hc_mod _ (by omega), ← hc]
        · rw [hcCol, hc_mod _ (by omega), ← hc]; omega
      unfold hc2cSpec
      split_ifs
      · rw [h 0 (by omega) _ (by omega) c1]
      · rw [h 0 (by omega) _ (by omega) c1, h 1 (by omega) _ (by omega) c1]
      · rw [h 0 (by omega) _ (by omega) c2, h 1 (by omega) _ (by omega) c2]
    simp only [hc2cStep, Bool.false_eq_true, if_false]
    cases via with
    | viaRdft =>
      simp only [packHc]
      split
      · rw [hB _ _ hk rfl]
      · rw [hB _ (m - f % m) (by omega) (by unfold hcCol; omega)]
    | viaDft => simp only; rw [hB _ _ hk rfl, hB _ _ hk rfl]
  · simp only [hc2cStep, if_true]
    congr 1
    unfold hc2cFwd
    refine sum_congr rfl fun b hb => ?_
    congr 1
    have hb := mem_range.1 hb
    have hlt : ∀ k < m, 2 * (b / 2 * m + k) ≤ r * m := by
      intro k hk
      have : (b / 2 + 1) * m ≤ (r / 2) * m := Nat.mul_le_mul_right _ (by omega)
      rw [Nat.add_mul] at this
      have h2 : 2 * (r / 2 * m) = r * m := by rw [← mul_assoc]; congr 1; omega
      omega
    have key : ∀ e' < 2, S e' (b / 2 * m + f % m) = S' e' (b / 2 * m + f % m) := by
      intro e' he'
      exact h e' he' _ (hlt _ hk) (by rw [hcCol, hc_mod _ hk]; rfl)
    have key' : ∀ e' < 2, S e' (b / 2 * m + (m - f % m) % m) = S' e' (b / 2 * m + (m - f % m) % m) := by
      intro e' he'
      have hx : (m - f % m) % m < m := Nat.mod_lt _ (by omega)
      refine h e' he' _ (hlt _ hx) ?_
      rw [hcCol, hc_mod _ hx]
      rcases Nat.eq_zero_or_pos (f % m) with h0 | h0
      · rw [h0, Nat.sub_zero, Nat.mod_self, hcCol, h0]
      · rw [Nat.mod_eq_of_lt (by omega)]; unfold hcCol; omega
    cases via with
    | viaRdft =>
      simp only [hc2cRow, unpackHc]
      have hb2 : b % 2 < 2 := Nat.mod_lt _ (by omega)
      rw [key _ hb2]
      split_ifs with h1 h2
      · rfl
      · have := key' _ hb2
        rw [Nat.mod_eq_of_lt (show m - f % m < m by omega)] at this
        rw [this]
      · have := key' _ hb2
        rw [Nat.mod_eq_of_lt (show m - f % m < m by omega)] at this
        rw [this]
    | viaDft =>
      simp only [hc2cRow, key 0 (by omega), key 1 (by omega), key' 0 (by omega), key' 1 (by omega)]

/-- decimation in time -/
theorem hc2c_dit (via : Hc2cKind) {r m f : ℕ} (hr : r ≠ 0) (hm : m ≠ 0) (S : ℕ → ℕ → ℝ) (x : ℕ → ℝ)
    (h : ∀ b < r, ∀ k < m, hc2cRow via m S b k = ∑ i ∈ range m, ω m ^ (i * k) * (x (i * r + b) : ℂ)) :
    hc2cFwd via r m S f = ∑ j ∈ range (r * m), ω (r * m) ^ (j * f) * (x j : ℂ) := by
  conv_rhs => rw [mul_comm r m, sum_mul_range]
  refine sum_congr rfl fun b hb => ?_
  rw [h b (mem_range.1 hb) _ (Nat.mod_lt _ (by omega)), mul_sum]
  refine sum_congr rfl fun i _ => ?_
  rw [← mul_assoc]
  congr 1
  rw [show (i * r + b) * f = r * (i * f) + b * f by ring, pow_add, mul_comm m r, ω_mul_pow r m _ hr, mul_comm]
  congr 1
  apply ω_pow_congr hm
  exact Nat.ModEq.mul_left i (Nat.mod_modEq f m)

/-- the rows that complex transforms leave -/
theorem hc2cRow_viaDft {r m : ℕ} (hr : r % 2 = 0) (hm : m ≠ 0) (S : ℕ → ℕ → ℝ) (x : ℕ → ℝ)
    (h : ∀ q < r / 2, ∀ k < m, (⟨S 0 (q * m + k), S 1 (q * m + k)⟩ : ℂ) =
      ∑ i ∈ range m, ω m ^ (i * k) * ((x (i * r + 2 * q) : ℂ) + Complex.I * (x (i * r + (2 * q + 1)) : ℂ))) {b k : ℕ} (hb : b < r) (hk : k < m) :
    hc2cRow .viaDft m S b k = ∑ i ∈ range m, ω m ^ (i * k) * (x (i * r + b) : ℂ) := by
  have hk' : (m - k) % m < m := Nat.mod_lt _ (by omega)
  simp only [hc2cRow]
  rw [h _ (by omega) k hk, h _ (by omega) _ hk', map_sum]
  have e : ∀ i, cj (ω m ^ (i * ((m - k) % m)) * ((x (i * r + 2 * (b / 2)) : ℂ) + Complex.I * (x (i * r + (2 * (b / 2) + 1)) : ℂ))) =
      ω m ^ (i * k) * ((x (i * r + 2 * (b / 2)) : ℂ) - Complex.I * (x (i * r + (2 * (b / 2) + 1)) : ℂ)) := by
    intro i
    have hw : cj (ω m ^ (i * ((m - k) % m))) = ω m ^ (i * k) := by
      refine (ω_pow_conj m _ hm ?_).symm
      rw [← mul_add, Nat.mul_mod, Nat.mod_add_mod, show m - k + k = m by omega, Nat.mod_self, mul_zero, Nat.zero_mod]
    rw [map_mul, hw, map_add, map_mul, Complex.conj_ofReal, Complex.conj_ofReal, Complex.conj_I]; ring
  simp only [e]
  split
  · rename_i h0
    rw [← sum_add_distrib, div_eq_iff (by norm_num), sum_mul]
    refine sum_congr rfl fun i _ => ?_
    rw [show 2 * (b / 2) = b by omega]; ring
  · rw [← sum_sub_distrib, div_eq_iff (by simp), sum_mul]
    refine sum_congr rfl fun i _ => ?_
    rw [show 2 * (b / 2) + 1 = b by omega]; ring

/-- the rows that real transforms leave -/
theorem hc2cRow_viaRdft {r m : ℕ} (S : ℕ → ℕ → ℝ) (x : ℕ → ℝ) {b : ℕ}
    (h : ∀ k < m, S (b % 2) (b / 2 * m + k) = ∑ i ∈ range m, rK .R2HC00 m i k * x (i * r + b)) {k : ℕ} (hk : k < m) :
    hc2cRow .viaRdft m S b k = ∑ i ∈ range m, ω m ^ (i * k) * (x (i * r + b) : ℂ) := by
  simp only [hc2cRow]
  rw [unpack_congr (w := packHc m fun q => ∑ i ∈ range m, ω m ^ (i * q) * ((x (i * r + b) : ℝ) : ℂ)) _ hk, unpack_pack (dft_zero _ _) _ hk]
  · intro q _ hq; exact dft_herm _ _ hq.le
  · intro l hl
    rw [h l hl, r2hc_pack _ (fun i => x (i * r + b)) hl]

/-- a transform of a Hermitian spectrum is real -/
theorem herm_real (n k : ℕ) (u : ℕ → ℝ) : (∑ q ∈ range n, cj (ω n) ^ (q * k) * unpackHc n u q).im = 0 := by
  have := hcRow_zero n 1 k (by omega) u
  unfold hcRow at this
  rw [← this]
  congr 1
  refine sum_congr rfl fun q _ => ?_
  rw [zero_add, mul_one, mul_one, mul_comm q k]

/-- decimation in frequency: the transforms of the rows -/
theorem hc2c_dif {r m : ℕ} (hr : r ≠ 0) (hm : m ≠ 0) (S : ℕ → ℕ → ℝ) (b i : ℕ) :
    ∑ k ∈ range m, cj (ω m) ^ (k * i) * hc2cBwd r m S b k = ((∑ p ∈ range (r * m), rK .HC2R00 (r * m) p (i * r + b) * hcOf (r * m) S p : ℝ) : ℂ) := by
  have e : ∑ k ∈ range m, cj (ω m) ^ (k * i) * hc2cBwd r m S b k =
      ∑ q ∈ range (r * m), cj (ω (r * m)) ^ (q * (i * r + b)) * unpackHc (r * m) (hcOf (r * m) S) q := by
    rw [sum_mul_range]
    refine sum_congr rfl fun l hl => ?_
    rw [hc2cBwd_eq S b (mem_range.1 hl), hcRow, mul_sum]
    refine sum_congr rfl fun t _ => ?_
    rw [← mul_assoc, add_comm l]
    congr 1
    rw [← map_pow, ← map_pow, ← map_pow, ← map_mul]
    congr 1
    rw [show (t * m + l) * (i * r + b) = r * (i * l) + (r * m) * (t * i) + b * (t * m + l) by ring, pow_add, pow_add, ω_mul_pow r m _ hr, pow_mul _ (r * m) (t * i), ω_pow_self _ (Nat.mul_ne_zero hr hm),
      one_pow, mul_one, mul_comm i l]
  rw [e, hc2r_unpack]
  apply Complex.ext
  · simp
  · rw [herm_real]; simp

theorem hcOf_chv (n : ℕ) (S : ℕ → ℕ → ℝ) (p : ℕ) : hcOf n S p = chv n (fun i => S (i % 2) (i / 2)) p := by
  unfold hcOf chv
  split
  · simp only []
    rw [show 2 * p % 2 = 0 by omega, show 2 * p / 2 = p by omega]
  · simp only []
    rw [show (2 * (n - p) + 1) % 2 = 1 by omega, show (2 * (n - p) + 1) / 2 = n - p by omega]

end FFTW.Spec
