import Verif.Spec.HcStep
import Verif.Proofs.GenfftReal
import Verif.Proofs.DftMath

/-! # The algebra of halfcomplex Cooley-Tukey -/

namespace FFTW.Spec
open Finset Real Genfft

local notation "cj" => starRingEnd ℂ

theorem ω_cis (n k : ℕ) : ω n ^ k = cis n (-(k : ℤ)) := by
  rw [ω_pow_cos, cis_eq]
  push_cast
  rw [show 2 * π * -(k : ℝ) / n = -(2 * π * k / n) by ring, cos_neg, sin_neg]

theorem cω_cis (n k : ℕ) : cj (ω n) ^ k = cis n (k : ℤ) := by
  rw [← map_pow, ω_cis, ← conj_eq, conj_cis, neg_neg]

theorem unpack_eq (n : ℕ) (u : ℕ → ℝ) (q : ℕ) : unpackHc n u q = ⟨spRe n 0 u q, spIm n 0 u q⟩ := by
  unfold unpackHc spRe spIm
  apply Complex.ext <;> split_ifs <;> first | rfl | (exfalso; omega) | simp_all | skip

theorem unpack_congr {n : ℕ} {u w : ℕ → ℝ} (h : ∀ j < n, u j = w j) {q : ℕ} (hq : q < n) : unpackHc n u q = unpackHc n w q := by
  unfold unpackHc
  split_ifs with h1 h2
  · rw [h q hq]
  · rw [h q hq, h (n - q) (by omega)]
  · rw [h q hq, h (n - q) (by omega)]

theorem pack_congr {n : ℕ} {X Y : ℕ → ℂ} (h : ∀ q < n, X q = Y q) {p : ℕ} (hp : p < n) : packHc n X p = packHc n Y p := by
  unfold packHc
  split_ifs with h1
  · rw [h p hp]
  · rw [h (n - p) (by omega)]

/-- unpacked spectra are Hermitian -/
theorem unpack_herm (n : ℕ) (u : ℕ → ℝ) {q : ℕ} (h0 : 0 < q) (hq : q < n) : unpackHc n u (n - q) = cj (unpackHc n u q) := by
  unfold unpackHc
  apply Complex.ext <;> split_ifs <;> simp <;> first | (exfalso; omega) | (congr 1; omega) | skip

theorem unpack_zero (n : ℕ) (u : ℕ → ℝ) : (unpackHc n u 0).im = 0 := by simp [unpackHc]

theorem unpack_pack {n : ℕ} {X : ℕ → ℂ} (h0 : (X 0).im = 0) (hX : ∀ q, 0 < q → q < n → X (n - q) = cj (X q)) {q : ℕ} (hq : q < n) :
    unpackHc n (packHc n X) q = X q := by
  unfold unpackHc packHc
  rcases lt_trichotomy (2 * q) n with h | h | h
  · by_cases hz : q = 0
    · subst hz
      apply Complex.ext <;> simp [h0]
    · rw [if_neg (by omega), if_pos h, if_pos h.le, if_neg (by omega), show n - (n - q) = q by omega]
  · rw [if_pos (Or.inr h), if_pos h.le]
    have := hX q (by omega) hq
    rw [show n - q = q by omega] at this
    apply Complex.ext
    · rfl
    · have := congrArg Complex.im this
      simp at this
      simp; linarith
  · rw [if_neg (by omega), if_neg (by omega), if_pos (by omega), if_neg (by omega)]
    have := hX q (by omega) hq
    rw [this]
    apply Complex.ext <;> simp

/-- a real-to-halfcomplex transform is the packed transform -/
theorem r2hc_pack (n : ℕ) (x : ℕ → ℝ) {p : ℕ} (hp : p < n) :
    ∑ j ∈ range n, rK .R2HC00 n j p * x j = packHc n (fun q => ∑ j ∈ range n, ω n ^ (j * q) * (x j : ℂ)) p := by
  show ∑ j ∈ range n, r2hcK 0 0 n j p * x j = _
  unfold packHc
  split
  · rename_i h
    rw [sum_re]
    refine sum_congr rfl fun j _ => ?_
    rw [r2hcK, if_pos (by omega), ω_pow_cos]
    simp [-Complex.ofReal_cos, -Complex.ofReal_sin]
    left; congr 1; ring
  · rename_i h
    rw [sum_im]
    refine sum_congr rfl fun j _ => ?_
    rw [r2hcK, if_neg (by omega), ω_pow_cos]
    simp [-Complex.ofReal_cos, -Complex.ofReal_sin]
    left; congr 1; ring

/-- the transform of real numbers is Hermitian -/
theorem dft_herm (n : ℕ) (x : ℕ → ℝ) {q : ℕ} (hq : q ≤ n) : ∑ j ∈ range n, ω n ^ (j * (n - q)) * (x j : ℂ) = cj (∑ j ∈ range n, ω n ^ (j * q) * (x j : ℂ)) := by
  rw [map_sum]
  refine sum_congr rfl fun j hj => ?_
  have hn : n ≠ 0 := by have := mem_range.1 hj; omega
  rw [map_mul, Complex.conj_ofReal, ω_pow_conj n (j * q) hn]
  rw [← mul_add, show q + (n - q) = n by omega, Nat.mul_mod_left]

theorem dft_zero (n : ℕ) (x : ℕ → ℝ) : (∑ j ∈ range n, ω n ^ (j * 0) * (x j : ℂ)).im = 0 := by
  simp [sum_im]

/-- a halfcomplex-to-real transform sums the whole spectrum -/
theorem hc2r_unpack (n : ℕ) (u : ℕ → ℝ) (k : ℕ) :
    ∑ p ∈ range n, rK .HC2R00 n p k * u p = (∑ q ∈ range n, cj (ω n) ^ (q * k) * unpackHc n u q).re := by
  show ∑ p ∈ range n, hc2rK 0 0 n p k * u p = _
  rw [← herm_sum (Or.inl rfl), sum_re]
  refine sum_congr rfl fun q _ => ?_
  rw [cω_cis, cis_re, unpack_eq]
  have e : 2 * π * (q + (0 : ℕ) / 2) * k / n = 2 * π * ((q * k : ℕ) : ℤ) / n := by push_cast; ring
  rw [e]

/-- decimation in time -/
theorem hc_dit (r m : ℕ) (hr : r ≠ 0) (hm : m ≠ 0) (x : ℕ → ℝ) {p : ℕ} (hp : p < r * m) (u : ℕ → ℝ)
    (hu : ∀ k < r, ∀ l < m, u (k * m + l) = ∑ i ∈ range m, rK .R2HC00 m i l * x (i * r + k)) :
    hcStep true r m u p = ∑ j ∈ range (r * m), rK .R2HC00 (r * m) j p * x j := by
  rw [r2hc_pack _ _ hp, hcStep, if_pos rfl]
  apply pack_congr _ hp
  intro q hq
  have hl : q % m < m := Nat.mod_lt _ (by omega)
  conv_rhs => rw [mul_comm r m, sum_mul_range]
  refine sum_congr rfl fun k hk => ?_
  have hk := mem_range.1 hk
  have e1 : unpackHc m (fun j => u (k * m + j)) (q % m) = ∑ i ∈ range m, ω m ^ (i * (q % m)) * (x (i * r + k) : ℂ) := by
    rw [unpack_congr (w := packHc m fun q => ∑ i ∈ range m, ω m ^ (i * q) * ((x (i * r + k) : ℝ) : ℂ)) _ hl, unpack_pack (dft_zero _ _) _ hl]
    · intro q _ hq; exact dft_herm _ _ hq.le
    · intro l hl
      rw [hu k hk l hl, r2hc_pack _ (fun i => x (i * r + k)) hl]
  rw [e1, mul_sum]
  refine sum_congr rfl fun i _ => ?_
  rw [← mul_assoc]
  congr 1
  · rw [show (i * r + k) * q = r * (i * q) + k * q by ring, pow_add, mul_comm m r, ω_mul_pow r m _ hr, mul_comm]
    congr 1
    apply ω_pow_congr hm
    exact Nat.ModEq.mul_left i (Nat.mod_modEq q m)

/-- the spectrum of row `k` -/
noncomputable def hcRow (r m k : ℕ) (u : ℕ → ℝ) (j : ℕ) : ℂ :=
  ∑ t ∈ range r, cj (ω (r * m)) ^ (k * (j + t * m)) * unpackHc (r * m) u (j + t * m)

theorem hcTerm_herm (n k : ℕ) (u : ℕ → ℝ) {q : ℕ} (h0 : 0 < q) (hq : q < n) :
    cj (ω n) ^ (k * (n - q)) * unpackHc n u (n - q) = cj (cj (ω n) ^ (k * q) * unpackHc n u q) := by
  rw [map_mul, unpack_herm n u h0 hq]
  congr 1
  rw [map_pow, Complex.conj_conj, ← map_pow, ← ω_pow_conj n (k * (n - q)) (by omega)]
  rw [← mul_add, show n - q + q = n by omega, Nat.mul_mod_left]

theorem hcRow_herm (r m k : ℕ) (u : ℕ → ℝ) {j : ℕ} (h0 : 0 < j) (hj : j < m) : hcRow r m k u (m - j) = cj (hcRow r m k u j) := by
  unfold hcRow
  rw [map_sum, ← sum_range_reflect]
  refine sum_congr rfl fun t ht => ?_
  have ht := mem_range.1 ht
  have hle : (t + 1) * m ≤ r * m := Nat.mul_le_mul_right _ (by omega)
  have e : m - j + (r - 1 - t) * m = r * m - (j + t * m) := by
    have : (r - 1 - t) * m = r * m - (t + 1) * m := by rw [← Nat.sub_mul]; congr 1; omega
    rw [this]; rw [Nat.add_mul] at hle ⊢; omega
  rw [e]
  exact hcTerm_herm _ _ _ (by omega) (by rw [Nat.add_mul] at hle; omega)

theorem hcRow_zero (r m k : ℕ) (hm : m ≠ 0) (u : ℕ → ℝ) : (hcRow r m k u 0).im = 0 := by
  rcases Nat.eq_zero_or_pos r with rfl | hr
  · simp [hcRow]
  obtain ⟨r', rfl⟩ : ∃ r', r = r' + 1 := ⟨r - 1, by omega⟩
  have key : cj (hcRow (r' + 1) m k u 0) = hcRow (r' + 1) m k u 0 := by
    unfold hcRow
    rw [sum_range_succ', map_add, map_sum]
    congr 1
    · rw [← sum_range_reflect]
      refine sum_congr rfl fun t ht => ?_
      have ht := mem_range.1 ht
      have e1 : (t + 1) * m ≤ r' * m := Nat.mul_le_mul_right _ (by omega)
      have e : (r' - 1 - t + 1) * m = (r' + 1) * m - (t + 1) * m := by
        rw [← Nat.sub_mul]; congr 1; omega
      have e3 : 0 < (t + 1) * m := by positivity
      have e4 := hcTerm_herm ((r' + 1) * m) k u e3 (by rw [Nat.add_mul r']; omega)
      rw [zero_add, zero_add, e, e4, Complex.conj_conj]
    · rw [map_mul]
      congr 1
      · simp
      · rw [zero_mul, zero_add]
        apply Complex.ext
        · simp
        · simp [unpack_zero]
  have := congrArg Complex.im key
  simp at this
  linarith

theorem hcStep_row (r m : ℕ) (u : ℕ → ℝ) {k l : ℕ} (hl : l < m) : hcStep false r m u (k * m + l) = packHc m (hcRow r m k u) l := by
  have e1 : (k * m + l) / m = k := by rw [mul_comm, Nat.mul_add_div (by omega), Nat.div_eq_of_lt hl, add_zero]
  have e2 : (k * m + l) % m = l := by rw [mul_comm, Nat.mul_add_mod, Nat.mod_eq_of_lt hl]
  simp only [hcStep, Bool.false_eq_true, if_false, e1, e2]
  rfl

/-- decimation in frequency -/
theorem hc_dif (r m : ℕ) (hr : r ≠ 0) (hm : m ≠ 0) (u w : ℕ → ℝ) {k : ℕ} (i : ℕ) (hw : ∀ l < m, w (k * m + l) = hcStep false r m u (k * m + l)) :
    ∑ l ∈ range m, rK .HC2R00 m l i * w (k * m + l) = ∑ p ∈ range (r * m), rK .HC2R00 (r * m) p (i * r + k) * u p := by
  rw [hc2r_unpack m (fun l => w (k * m + l)), hc2r_unpack (r * m) u]
  congr 1
  have e1 : ∀ l < m, unpackHc m (fun l => w (k * m + l)) l = hcRow r m k u l := by
    intro l hl
    rw [unpack_congr (w := packHc m (hcRow r m k u)) _ hl, unpack_pack (hcRow_zero r m k hm u) _ hl]
    · intro q h0 hq; exact hcRow_herm r m k u h0 hq
    · intro l hl
      rw [hw l hl, hcStep_row r m u hl]
  rw [sum_congr rfl fun l hl => by rw [e1 l (mem_range.1 hl)]]
  rw [sum_mul_range]
  refine sum_congr rfl fun l _ => ?_
  rw [hcRow, mul_sum]
  refine sum_congr rfl fun t _ => ?_
  rw [← mul_assoc, add_comm l]
  congr 1
  rw [← map_pow, ← map_pow, ← map_pow, ← map_mul]
  congr 1
  rw [show (t * m + l) * (i * r + k) = r * (i * l) + (r * m) * (t * i) + k * (t * m + l) by ring, pow_add, pow_add, ω_mul_pow r m _ hr, pow_mul _ (r * m) (t * i), ω_pow_self _ (by positivity),
    one_pow, mul_one, mul_comm i l]

/-- column 0 is an ordinary transform of length `r` -/
theorem hcStep_zero (fwd : Bool) {r m : ℕ} (hr : r ≠ 0) (hm : m ≠ 0) (u : ℕ → ℝ) {k : ℕ} (hk : k < r) :
    hcStep fwd r m u (k * m) = ∑ j ∈ range r, rK (if fwd then .R2HC00 else .HC2R00) r j k * u (j * m) := by
  cases fwd
  · have := hcStep_row r m u (k := k) (l := 0) (by omega)
    rw [add_zero] at this
    rw [this, packHc, if_pos (by omega)]
    simp only [Bool.false_eq_true, if_false]
    rw [hc2r_unpack]
    congr 1
    unfold hcRow
    refine sum_congr rfl fun t ht => ?_
    have ht := mem_range.1 ht
    congr 1
    · rw [← map_pow, ← map_pow, zero_add, show k * (t * m) = m * (t * k) by ring, mul_comm r m, ω_mul_pow m r _ hm]
    · rw [zero_add]
      unfold unpackHc
      have e1 : (t * m = 0 ∨ 2 * (t * m) = r * m) ↔ (t = 0 ∨ 2 * t = r) := by
        rw [← mul_assoc, Nat.mul_eq_zero, Nat.mul_left_inj hm]; simp [hm]
      have e2 : 2 * (t * m) < r * m ↔ 2 * t < r := by
        rw [← mul_assoc, Nat.mul_lt_mul_right (by omega)]
      simp only [e1, e2, ← Nat.sub_mul]
  · simp only [hcStep, if_true]
    rw [r2hc_pack r (fun j => u (j * m)) hk]
    have e3 : ∀ t, (∑ j ∈ range r, ω (r * m) ^ (j * (t * m)) * unpackHc m (fun l => u (j * m + l)) (t * m % m)) = ∑ j ∈ range r, ω r ^ (j * t) * ((u (j * m) : ℝ) : ℂ) := by
      intro t
      refine sum_congr rfl fun j _ => ?_
      rw [show j * (t * m) = m * (j * t) by ring, mul_comm r m, ω_mul_pow m r _ hm, Nat.mul_mod_left]
      congr 1
    unfold packHc
    have e2 : 2 * (k * m) ≤ r * m ↔ 2 * k ≤ r := by
      rw [← mul_assoc, Nat.mul_le_mul_right_iff (by omega)]
    simp only [e2, ← Nat.sub_mul, e3]

theorem hc_mod {m l : ℕ} (k : ℕ) (hl : l < m) : (k * m + l) % m = l := by rw [mul_comm, Nat.mul_add_mod, Nat.mod_eq_of_lt hl]

theorem hc_half {r m l : ℕ} (k : ℕ) (h : 2 * l ≤ m) (h0 : 0 < l) : 2 * (k * m + l) ≤ r * m ↔ 2 * k < r := by
  constructor
  · intro h1
    by_contra hc
    have : r * m ≤ (2 * k) * m := Nat.mul_le_mul_right _ (by omega)
    rw [mul_assoc] at this; omega
  · intro h1
    have : (2 * k + 1) * m ≤ r * m := Nat.mul_le_mul_right _ (by omega)
    rw [Nat.add_mul, mul_assoc] at this; omega

theorem hc_half' {r m l : ℕ} (k : ℕ) (h : 2 * l < m) (h0 : 0 < l) : 2 * (k * m + l) < r * m ↔ 2 * k < r := by
  rw [← hc_half k h.le h0]
  constructor
  · intro h1; omega
  · intro h1
    have h2 := (hc_half k h.le h0).1 h1
    have : (2 * k + 1) * m ≤ r * m := Nat.mul_le_mul_right _ (by omega)
    rw [Nat.add_mul, mul_assoc] at this; omega

theorem hc_refl {r m l k : ℕ} (hl : l < m) (hk : k < r) : r * m - (k * m + l) = (r - 1 - k) * m + (m - l) := by
  have : (r - 1 - k) * m = r * m - (k + 1) * m := by rw [← Nat.sub_mul]; congr 1; omega
  have h2 : (k + 1) * m ≤ r * m := Nat.mul_le_mul_right _ (by omega)
  rw [this]; rw [Nat.add_mul] at *; omega

/-- the middle column is a shifted transform of length `r` -/
theorem hcStep_mid (fwd : Bool) {r m l : ℕ} (hr : r ≠ 0) (hm : 2 * l = m) (hl : 0 < l) (u : ℕ → ℝ) {k : ℕ} (hk : k < r) :
    hcStep fwd r m u (k * m + l) = ∑ j ∈ range r, rK (if fwd then .R2HC01 else .HC2R10) r j k * u (j * m + l) := by
  have hlm : l < m := by omega
  have hml : m - l = l := by omega
  have hm0 : (m : ℝ) ≠ 0 := by
    have : 0 < m := by omega
    positivity
  have hr0 : (r : ℝ) ≠ 0 := by positivity
  have hlr : (m : ℝ) = 2 * l := by rw [← hm]; push_cast; ring
  have hl0 : (l : ℝ) ≠ 0 := by positivity
  cases fwd
  · rw [hcStep_row r m u hlm, packHc, if_pos (by omega)]
    simp only [Bool.false_eq_true, if_false]
    show _ = ∑ j ∈ range r, hc2rK 1 0 r j k * u (j * m + l)
    rw [← herm_sum (Or.inr rfl) k (fun j => u (j * m + l)), hcRow, sum_re]
    refine sum_congr rfl fun t ht => ?_
    have ht := mem_range.1 ht
    rw [cω_cis, cis_re, unpack_eq]
    have e : 2 * π * (t + (1 : ℕ) / 2) * k / r = 2 * π * ((k * (l + t * m) : ℕ) : ℤ) / (r * m : ℕ) := by
      push_cast; rw [hlr]; field_simp; ring
    rw [e]
    have e1 : (2 * (l + t * m) + 0 ≤ r * m) ↔ 2 * t + 1 ≤ r := by
      rw [add_zero, add_comm l, hc_half t (by omega) hl]; omega
    have e2 : (2 * (l + t * m) + 0 = r * m) ↔ 2 * t + 1 = r := by
      rw [← Nat.mul_left_inj (show m ≠ 0 by omega) (b := 2 * t + 1), Nat.add_mul, mul_assoc]; omega
    have e3 : r * m - 0 - (l + t * m) = (r - 1 - t) * m + l := by
      rw [Nat.sub_zero, add_comm l, hc_refl hlm ht, hml]
    have e4 : (2 * (l + t * m) + 0 < r * m) ↔ 2 * t + 1 < r := by
      rw [lt_iff_le_and_ne, lt_iff_le_and_ne, e1, Ne, e2]
    have e5 : ¬ (2 * (l + t * m) + 0 = 0) := by omega
    have e6 : ¬ (2 * t + 1 = 0) := by omega
    simp only [spRe, spIm, e1, e2, e3, e4, e5, e6]
    simp only [add_comm l]
  · simp only [hcStep, if_true]
    show _ = ∑ j ∈ range r, r2hcK 0 1 r j k * u (j * m + l)
    have e1 : ∀ j, unpackHc m (fun i => u (j * m + i)) l = ⟨u (j * m + l), 0⟩ := by
      intro j; rw [unpackHc, if_pos (Or.inr hm)]
    unfold packHc
    have e2 : (2 * (k * m + l) ≤ r * m) ↔ 2 * k + 1 ≤ r := by rw [hc_half k (by omega) hl]; omega
    by_cases h : 2 * k + 1 ≤ r
    · rw [if_pos (e2.2 h)]
      dsimp only
      rw [hc_mod k hlm, sum_re]
      refine sum_congr rfl fun j _ => ?_
      rw [e1, ω_pow_cos, r2hcK, if_pos h]
      simp only [Complex.sub_re, Complex.mul_re, Complex.sub_im, Complex.ofReal_re, Complex.ofReal_im, Complex.mul_im, Complex.I_re, Complex.I_im]
      have e : 2 * π * (j + (0 : ℕ) / 2) * (k + (1 : ℕ) / 2) / r = 2 * π * ((j * (k * m + l) : ℕ) : ℝ) / (r * m : ℕ) := by
        push_cast; rw [hlr]; field_simp; ring
      rw [e]; ring
    · rw [if_neg (fun hh => h (e2.1 hh))]
      dsimp only
      rw [hc_refl hlm hk, hml, hc_mod _ hlm, sum_im]
      refine sum_congr rfl fun j _ => ?_
      rw [e1, ω_pow_cos, r2hcK, if_neg h]
      simp only [Complex.sub_re, Complex.mul_re, Complex.sub_im, Complex.ofReal_re, Complex.ofReal_im, Complex.mul_im, Complex.I_re, Complex.I_im]
      have e : 2 * π * (j + (0 : ℕ) / 2) * (((r - 1 - k : ℕ) : ℝ) + (1 : ℕ) / 2) / r = 2 * π * ((j * ((r - 1 - k) * m + l) : ℕ) : ℝ) / (r * m : ℕ) := by
        push_cast; rw [hlr]; field_simp; ring
      rw [e]; ring

/-- the other columns come in pairs `l`, `m - l` -/
theorem hcStep_col (fwd : Bool) {r m l : ℕ} (hr : r ≠ 0) (hl : 0 < l) (hm : 2 * l < m) (u : ℕ → ℝ) {k : ℕ} (hk : k < r) :
    (⟨hcStep fwd r m u (k * m + l), hcStep fwd r m u (k * m + (m - l))⟩ : ℂ) = hcColumn fwd r m l (fun j => ⟨u (j * m + l), u (j * m + (m - l))⟩) k := by
  have hlm : l < m := by omega
  cases fwd
  · rw [hcStep_row r m u hlm, hcStep_row r m u (l := m - l) (by omega), packHc, packHc, if_pos (by omega), if_neg (by omega), show m - (m - l) = l by omega,
      hcColumn, if_neg (by simp)]
    rw [show (⟨(hcRow r m k u l).re, (hcRow r m k u l).im⟩ : ℂ) = hcRow r m k u l from rfl, hcRow]
    refine sum_congr rfl fun t ht => ?_
    have ht := mem_range.1 ht
    rw [add_comm l]
    congr 1
    unfold unpackHc
    have h0 : ¬ (t * m + l = 0 ∨ 2 * (t * m + l) = r * m) := by
      have h1 := hc_half' (r := r) t hm hl
      have h2 := hc_half (r := r) t hm.le hl
      omega
    rw [if_neg h0, hc_refl hlm ht]
    simp only [hc_half' (r := r) t hm hl]
  · have hX : ∀ t < r, unpackHc m (fun i => u (t * m + i)) l = ⟨u (t * m + l), u (t * m + (m - l))⟩ := by
      intro t _
      rw [unpackHc, if_neg (by omega), if_pos hm]
    have hX' : ∀ t < r, unpackHc m (fun i => u (t * m + i)) (m - l) = cj ⟨u (t * m + l), u (t * m + (m - l))⟩ := by
      intro t ht
      rw [unpack_herm m _ hl hlm, hX t ht]
    rw [hcColumn, if_pos rfl]
    simp only [hcStep, if_true]
    have hfun : ∀ t, (∑ j ∈ range r, ω (r * m) ^ (j * (t * m + l)) * unpackHc m (fun i => u (j * m + i)) ((t * m + l) % m)) =
        ∑ j ∈ range r, ω (r * m) ^ (j * (t * m + l)) * (⟨u (j * m + l), u (j * m + (m - l))⟩ : ℂ) := by
      intro t
      rw [hc_mod t hlm]
      exact sum_congr rfl fun j hj => by rw [hX j (mem_range.1 hj)]
    have hfun' : ∀ t < r, (∑ j ∈ range r, ω (r * m) ^ (j * (t * m + (m - l))) * unpackHc m (fun i => u (j * m + i)) ((t * m + (m - l)) % m)) =
        cj (∑ j ∈ range r, ω (r * m) ^ (j * ((r - 1 - t) * m + l)) * (⟨u (j * m + l), u (j * m + (m - l))⟩ : ℂ)) := by
      intro t ht
      rw [hc_mod t (show m - l < m by omega), map_sum]
      refine sum_congr rfl fun j hj => ?_
      rw [hX' j (mem_range.1 hj), map_mul]
      congr 1
      have := hc_refl (l := m - l) (m := m) (by omega) ht
      rw [show m - (m - l) = l by omega] at this
      rw [ω_pow_conj (r * m) _ (Nat.mul_ne_zero hr (by omega))]
      rw [← this, ← mul_add]
      have h2 : t * m + (m - l) ≤ r * m := by
        have : (t + 1) * m ≤ r * m := Nat.mul_le_mul_right _ (by omega)
        rw [Nat.add_mul] at this; omega
      rw [show r * m - (t * m + (m - l)) + (t * m + (m - l)) = r * m by omega, Nat.mul_mod_left]
    have hkr : r - 1 - (r - 1 - k) = k := by omega
    have hk' : r - 1 - k < r := by omega
    apply Complex.ext
    · simp only
      unfold packHc
      simp only [hc_half (r := r) k hm.le hl]
      split
      · rw [hfun]
      · rw [hc_refl hlm hk, hfun' _ hk', hkr, Complex.conj_im]
    · simp only
      unfold packHc
      have e1 : (2 * (k * m + (m - l)) ≤ r * m) ↔ ¬ (2 * (r - 1 - k) < r) := by
        have h1 := hc_half' (r := r) (r - 1 - k) hm hl
        have h2 := hc_refl (l := l) hlm hk'
        rw [hkr] at h2
        have h3 : (r - 1 - k) * m + l ≤ r * m := by
          have : (r - 1 - k + 1) * m ≤ r * m := Nat.mul_le_mul_right _ (by omega)
          rw [Nat.add_mul] at this; omega
        omega
      simp only [e1]
      split
      · rename_i h
        rw [hfun' _ hk, Complex.conj_re]
      · rename_i h
        rw [hc_refl (l := m - l) (by omega) hk, show m - (m - l) = l by omega, hfun, if_pos (not_not.1 h)]

end FFTW.Spec
