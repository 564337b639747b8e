import Verif.Proofs.Genfft2

/-! # fft.ml: the scaled split-radix algorithm, and the correctness of `dft` -/

namespace FFTW.Genfft
open Complex Finset

/-- `k4'` depends only on `±k mod n/4` -/
theorem k4'_congr {M : ℕ} (hM : 0 < M) (hM2 : M % 2 = 0) {k k' : ℤ} (h : (M : ℤ) ∣ k - k' ∨ (M : ℤ) ∣ k + k') : k4' (4 * M) k = k4' (4 * M) k' := by
  have a1 := Nat.mod_add_div k.natAbs M
  have a2 := Nat.mod_add_div k'.natAbs M
  have b1 := Nat.mod_lt k.natAbs hM
  have b2 := Nat.mod_lt k'.natAbs hM
  unfold k4'
  rw [show 4 * M / 4 = M by omega, show 4 * M / 8 = M / 2 by omega]
  simp only
  have key : k.natAbs % M = k'.natAbs % M ∨ k.natAbs % M + k'.natAbs % M = M := by
    generalize k.natAbs % M = r at *
    generalize k'.natAbs % M = r' at *
    generalize k.natAbs / M = q at *
    generalize k'.natAbs / M = q' at *
    have e : ∃ c : ℤ, (r : ℤ) - r' = M * c ∨ (r : ℤ) + r' = M * c := by
      have c1 : (k : ℤ) = (r + M * q : ℕ) ∨ (k : ℤ) = -(r + M * q : ℕ) := by rw [a1]; omega
      have c2 : (k' : ℤ) = (r' + M * q' : ℕ) ∨ (k' : ℤ) = -(r' + M * q' : ℕ) := by rw [a2]; omega
      rcases h with ⟨c, hc⟩ | ⟨c, hc⟩ <;> rcases c1 with c1 | c1 <;> rcases c2 with c2 | c2 <;> rw [c1, c2] at hc <;> push_cast at hc
      · exact ⟨c - q + q', Or.inl (by linear_combination hc)⟩
      · exact ⟨c - q - q', Or.inr (by linear_combination hc)⟩
      · exact ⟨-c - q - q', Or.inr (by linear_combination -hc)⟩
      · exact ⟨-c - q + q', Or.inl (by linear_combination -hc)⟩
      · exact ⟨c - q - q', Or.inr (by linear_combination hc)⟩
      · exact ⟨c - q + q', Or.inl (by linear_combination hc)⟩
      · exact ⟨-c - q + q', Or.inl (by linear_combination -hc)⟩
      · exact ⟨-c - q - q', Or.inr (by linear_combination -hc)⟩
    obtain ⟨c, hc | hc⟩ := e
    · left
      have h1 : -1 < c := by by_contra hh; nlinarith
      have h2 : c < 1 := by by_contra hh; nlinarith
      obtain rfl : c = 0 := by omega
      omega
    · have h1 : -1 < c := by by_contra hh; nlinarith
      have h2 : c < 2 := by by_contra hh; nlinarith
      rcases (by omega : c = 0 ∨ c = 1) with rfl | rfl
      · left; omega
      · right; omega
  generalize k.natAbs % M = r at *
  generalize k'.natAbs % M = r' at *
  split <;> split <;> omega

theorem k4'_le {M : ℕ} (hM : 0 < M) (hM2 : M % 2 = 0) (k : ℤ) : k4' (4 * M) k ≤ M / 2 := by
  unfold k4'
  rw [show 4 * M / 4 = M by omega, show 4 * M / 8 = M / 2 by omega]
  simp only
  split <;> omega

theorem k4'_self {M : ℕ} (hM : 0 < M) (k : ℤ) : (M : ℤ) ∣ (k4' (4 * M) k : ℤ) - k ∨ (M : ℤ) ∣ (k4' (4 * M) k : ℤ) + k := by
  have a1 := Nat.mod_add_div k.natAbs M
  have b1 := Nat.mod_lt k.natAbs (by omega : 0 < M)
  unfold k4'
  rw [show 4 * M / 4 = M by omega]
  simp only
  generalize k.natAbs % M = r at *
  generalize k.natAbs / M = q at *
  have c1 : (k : ℤ) = (r + M * q : ℕ) ∨ (k : ℤ) = -(r + M * q : ℕ) := by rw [a1]; omega
  split
  · rcases c1 with c1 | c1 <;> rw [c1] <;> push_cast
    · left; exact ⟨-q, by ring⟩
    · right; exact ⟨-q, by ring⟩
  · rw [Nat.cast_sub b1.le]
    rcases c1 with c1 | c1 <;> rw [c1] <;> push_cast
    · right; exact ⟨1 + q, by ring⟩
    · left; exact ⟨1 + q, by ring⟩

theorem cos_pos {M : ℕ} (hM : 0 < M) (hM2 : M % 2 = 0) (k : ℤ) : 0 < (cis (4 * M) (k4' (4 * M) k)).re := by
  rw [cis_eq]
  simp only
  apply Real.cos_pos_of_mem_Ioo
  have h := k4'_le hM hM2 k
  generalize k4' (4 * M) k = j at *
  have hj : (j : ℝ) ≤ M / 2 := by
    have : 2 * j ≤ M := by omega
    have : (2 * j : ℝ) ≤ M := by exact_mod_cast this
    linarith
  have hM' : (0 : ℝ) < M := by exact_mod_cast hM
  have hpi := Real.pi_pos
  push_cast
  constructor
  · have : 0 ≤ 2 * Real.pi * (j : ℝ) / (4 * M) := by positivity
    linarith
  · rw [div_lt_div_iff₀ (by positivity) (by norm_num)]
    nlinarith

theorem two_pow_cases (e : ℕ) : (2 ^ e = 1 ∨ 2 ^ e = 2 ∨ 2 ^ e = 4) ∨ ∃ e', e = e' + 3 ∧ 2 ^ e = 4 * (2 * 2 ^ e') := by
  rcases e with _ | _ | _ | e
  · simp
  · simp
  · simp
  · right; exact ⟨e, rfl, by ring⟩

theorem s_congr (e : ℕ) {k k' : ℤ} (h : 4 < 2 ^ e → ((2 ^ e / 4 : ℕ) : ℤ) ∣ k - k' ∨ ((2 ^ e / 4 : ℕ) : ℤ) ∣ k + k') : s (2 ^ e) k = s (2 ^ e) k' ∧ sinv (2 ^ e) k = sinv (2 ^ e) k' := by
  rcases two_pow_cases e with hh | ⟨e', rfl, he⟩
  · have : 2 ^ e ≤ 4 := by omega
    constructor
    · rw [s.eq_def, if_pos this, s.eq_def, if_pos this]
    · rw [sinv.eq_def, if_pos this, sinv.eq_def, if_pos this]
  · have hp : 0 < 2 ^ e' := Nat.two_pow_pos e'
    have h := h (by omega)
    rw [he] at h ⊢
    rw [show 4 * (2 * 2 ^ e') / 4 = 2 * 2 ^ e' by omega] at h
    have := k4'_congr (by omega) (by omega) h
    constructor
    · rw [s.eq_def, s.eq_def (k := k'), this]
    · rw [sinv.eq_def, sinv.eq_def (k := k'), this]

theorem sinv_mul_s (e : ℕ) : ∀ k : ℤ, sinv (2 ^ e) k * s (2 ^ e) k = 1 ∧ conj (s (2 ^ e) k) = s (2 ^ e) k ∧ conj (sinv (2 ^ e) k) = sinv (2 ^ e) k := by
  induction e using Nat.strong_induction_on with
  | _ e ih =>
    intro k
    rcases two_pow_cases e with hh | ⟨e', rfl, he⟩
    · have : 2 ^ e ≤ 4 := by omega
      rw [s.eq_def, if_pos this, sinv.eq_def, if_pos this]
      simp [conj_eq]
    · have hp : 0 < 2 ^ e' := Nat.two_pow_pos e'
      obtain ⟨i1, i2, i3⟩ := ih (e' + 1) (by omega) (k4' (2 ^ (e' + 3)) k)
      rw [s.eq_def, if_neg (by omega), sinv.eq_def, if_neg (by omega), show 2 ^ (e' + 3) / 4 = 2 ^ (e' + 1) by rw [he, pow_succ]; omega]
      have hc := cos_pos (M := 2 * 2 ^ e') (by omega) (by omega) k
      rw [← he] at hc
      generalize k4' (2 ^ (e' + 3)) k = κ at *
      have hc' : ((cis (2 ^ (e' + 3)) κ).re : ℂ) ≠ 0 := by exact_mod_cast hc.ne'
      refine ⟨?_, ?_, ?_⟩
      · unfold sec real
        push_cast
        field_simp
        exact i1
      · rw [conj_eq, map_mul, ← conj_eq, i2]; simp [real]
      · rw [conj_eq, map_mul, ← conj_eq, i3, sec, Complex.conj_ofReal]

theorem sdiv4_eq (e : ℕ) (k : ℤ) : sdiv4 (2 ^ e) k = s (2 ^ e) k * sinv (2 ^ (e + 2)) k := by
  have hp : 0 < 2 ^ e := Nat.two_pow_pos e
  have he : 2 ^ (e + 2) = 4 * 2 ^ e := by ring
  have hk : ((if k.natAbs % 2 ^ e ≤ 2 ^ e / 2 then k.natAbs % 2 ^ e else 2 ^ e - k.natAbs % 2 ^ e : ℕ) : ℤ) = k4' (4 * 2 ^ e) k := by
    unfold k4'
    rw [show 4 * 2 ^ e / 4 = 2 ^ e by omega, show 4 * 2 ^ e / 8 = 2 ^ e / 2 by omega]
  unfold sdiv4
  simp only [hk]
  by_cases h0 : e = 0
  · subst h0
    rw [s.eq_def, if_pos (by norm_num), sinv.eq_def, if_pos (by norm_num)]
    have : k4' (4 * 2 ^ 0) k = 0 := by simp [k4', Nat.mod_one]
    rw [this]
    simp [sec]
  · rw [he]
    conv_rhs => rw [sinv.eq_def, if_neg (by have := Nat.pow_le_pow_right (n := 2) (by norm_num) (show 1 ≤ e by omega); omega), show 4 * 2 ^ e / 4 = 2 ^ e by omega]
    have h1 := k4'_self (M := 2 ^ e) hp k
    have h2 : s (2 ^ e) k = s (2 ^ e) (k4' (4 * 2 ^ e) k) := by
      refine ((s_congr e fun h4 => ?_).1).symm
      have hd : ((2 ^ e / 4 : ℕ) : ℤ) ∣ ((2 ^ e : ℕ) : ℤ) := by
        rcases two_pow_cases e with hh | ⟨e', rfl, he⟩
        · omega
        · rw [he]; norm_num
      exact h1.imp hd.trans hd.trans
    have h3 := (sinv_mul_s e (k4' (4 * 2 ^ e) k)).1
    rw [h2, ← mul_assoc, mul_comm (s _ _), h3, one_mul]

theorem pow_dvd_sub_mod (e : ℕ) (a b k : ℕ) (h : b ∣ a) : ((b : ℕ) : ℤ) ∣ ((k % a : ℕ) : ℤ) - k := by
  have e := Nat.mod_add_div k a
  obtain ⟨c, rfl⟩ := h
  refine ⟨-(c * (k / (b * c) : ℕ)), ?_⟩
  have : (k : ℤ) = (k % (b * c) : ℕ) + (b * c : ℕ) * (k / (b * c) : ℕ) := by exact_mod_cast e.symm
  generalize ((k % (b * c) : ℕ) : ℤ) = x at *
  generalize ((k / (b * c) : ℕ) : ℤ) = y at *
  rw [this]; push_cast; ring

/-- scaling factors at a reduced index -/
theorem s_mod (e f k : ℕ) (h : e ≤ f + 2) : s (2 ^ e) (k % 2 ^ f : ℕ) = s (2 ^ e) k ∧ sinv (2 ^ e) (k % 2 ^ f : ℕ) = sinv (2 ^ e) k := by
  apply s_congr
  intro h4
  left
  apply pow_dvd_sub_mod
  · exact 0
  · rcases two_pow_cases e with hh | ⟨e', rfl, he⟩
    · omega
    · rw [show 2 ^ (e' + 3) / 4 = 2 ^ (e' + 1) by rw [he, pow_succ]; omega]
      exact pow_dvd_pow 2 (by omega)

theorem s_sign (e : ℕ) {sign : ℤ} (hs : sign = 1 ∨ sign = -1) (k : ℤ) : s (2 ^ e) (sign * k) = s (2 ^ e) k ∧ sinv (2 ^ e) (sign * k) = sinv (2 ^ e) k := by
  apply s_congr
  intro _
  rcases hs with rfl | rfl
  · left; simp
  · right; simp

theorem sdiv4_mul (e : ℕ) (k : ℤ) : sinv (2 ^ e) k * sdiv4 (2 ^ e) k = sinv (2 ^ (e + 2)) k := by
  rw [sdiv4_eq, ← mul_assoc, (sinv_mul_s e k).1, one_mul]

theorem t_eq (e : ℕ) {sign : ℤ} (hs : sign = 1 ∨ sign = -1) (k : ℕ) :
    t (2 ^ (e + 2)) (sign * k) * sinv (2 ^ e) k = sinv (2 ^ (e + 2)) k * cis (2 ^ (e + 2)) (sign * k) ∧
    conj (t (2 ^ (e + 2)) (sign * k)) * sinv (2 ^ e) k = sinv (2 ^ (e + 2)) k * cis (2 ^ (e + 2)) (-sign * k) := by
  unfold t
  rw [show 2 ^ (e + 2) / 4 = 2 ^ e by rw [pow_add]; omega, sdiv4_eq, (s_sign e hs k).1, (s_sign (e + 2) hs k).2]
  obtain ⟨a, b, c⟩ := sinv_mul_s e k
  obtain ⟨a', b', c'⟩ := sinv_mul_s (e + 2) k
  constructor
  · linear_combination (cis (2 ^ (e + 2)) (sign * k) * sinv (2 ^ (e + 2)) k) * a
  · rw [conj_eq, map_mul, map_mul, ← conj_eq, ← conj_eq, ← conj_eq, b, c', conj_cis, neg_mul]
    linear_combination (cis (2 ^ (e + 2)) (-(sign * k)) * sinv (2 ^ (e + 2)) k) * a

theorem dftSum_one (sign : ℤ) (x : Signal) (k : ℕ) (hk : k < 1) : dftSum sign 1 x k = x k := by
  obtain rfl : k = 0 := by omega
  simp [dftSum]

theorem dft2_ok {sign : ℤ} (hs : sign = 1 ∨ sign = -1) (x : Signal) (k : ℕ) (hk : k < 2) : dft2 x k = dftSum sign 2 x k := by
  unfold dft2 dftSum
  simp only [array, if_pos hk, sum_range_succ, sum_range_zero]
  have : cis 2 (sign * (1 : ℕ) * k) = cis 2 k := by
    apply cis_congr
    rcases hs with rfl | rfl
    · simp
    · exact ⟨-k, by push_cast; ring⟩
  rw [this]
  simp [mul_comm]

theorem newsplit_ok {sign : ℤ} (hs : sign = 1 ∨ sign = -1) (e : ℕ) : ∀ x : Signal, ∀ k < 2 ^ e,
    newsplit0 sign (2 ^ e) x k = dftSum sign (2 ^ e) x k ∧
    newsplitS sign (2 ^ e) x k = sinv (2 ^ e) k * dftSum sign (2 ^ e) x k ∧
    newsplitS2 sign (2 ^ e) x k = sinv (2 ^ (e + 1)) k * dftSum sign (2 ^ e) x k ∧
    newsplitS4 sign (2 ^ e) x k = sinv (2 ^ (e + 2)) k * dftSum sign (2 ^ e) x k := by
  induction e using Nat.strong_induction_on with
  | _ e ih =>
    intro x k hk
    rcases e with _ | _ | e
    · simp only [pow_zero] at hk ⊢
      rw [dftSum_one _ _ _ hk, newsplit0.eq_def sign _ x, newsplitS.eq_def sign _ x, newsplitS2.eq_def sign _ x, newsplitS4.eq_def sign _ x]
      simp only [if_pos le_rfl]
      rw [sinv.eq_def 1, sinv.eq_def (2 ^ (0 + 1)), sinv.eq_def (2 ^ (0 + 2))]
      simp
    · simp only [zero_add, pow_one] at hk ⊢
      have e1 : sinv 2 k = 1 := by rw [sinv.eq_def]; simp
      have e2 : sinv (2 ^ (1 + 1)) k = 1 := by rw [sinv.eq_def]; simp
      rw [newsplit0.eq_def sign _ x, newsplitS.eq_def sign _ x, newsplitS2.eq_def sign _ x, newsplitS4.eq_def sign _ x, e1, e2]
      simp only [if_neg (show ¬ (2 ≤ 1) by omega), if_true, array, if_pos hk, dft2_ok hs x k hk]
      refine ⟨trivial, by ring, by ring, by rw [mul_comm]; norm_num⟩
    · have hp : 0 < 2 ^ e := Nat.two_pow_pos e
      have hn : 2 ^ (e + 2) = 4 * 2 ^ e := by ring
      have hn2 : 2 ^ (e + 2) / 2 = 2 ^ (e + 1) := by rw [hn, pow_succ]; omega
      have hn4 : 2 ^ (e + 2) / 4 = 2 ^ e := by omega
      have hk1 : k % 2 ^ (e + 1) < 2 ^ (e + 1) := Nat.mod_lt _ (Nat.two_pow_pos _)
      have hk0 : k % 2 ^ e < 2 ^ e := Nat.mod_lt _ hp
      have u := ih (e + 1) (by omega) (fun i => x (i * 2)) _ hk1
      have z := (ih e (by omega) (fun i => x (i * 4 + 1)) _ hk0).2.1
      have z' := (ih e (by omega) (fun i => x ((2 ^ (e + 2) + i * 4 - 1) % 2 ^ (e + 2))) _ hk0).2.1
      rw [(s_mod e e k (by omega)).2, dftSum_mod] at z z'
      rw [(s_mod (e + 1) (e + 1) k (by omega)).2, (s_mod (e + 1 + 1) (e + 1) k (by omega)).2, (s_mod (e + 1 + 2) (e + 1) k (by omega)).2, dftSum_mod] at u
      obtain ⟨u0, -, u2, u4⟩ := u
      have sp := split_dft sign (2 ^ e) hp x k
      rw [← hn, show 2 * 2 ^ e = 2 ^ (e + 1) by ring] at sp
      obtain ⟨t1, t2⟩ := t_eq e hs k
      obtain ⟨a, b, c⟩ := sinv_mul_s e k
      rw [newsplit0.eq_def sign _ x, newsplitS.eq_def sign _ x, newsplitS2.eq_def sign _ x, newsplitS4.eq_def sign _ x]
      simp only [if_neg (show ¬ (2 ^ (e + 2) ≤ 1) by omega), if_neg (show ¬ (2 ^ (e + 2) = 2) by omega), hn2, hn4, array, if_pos hk]
      generalize dftSum sign (2 ^ e) (fun i => x (i * 4 + 1)) k = Z at *
      generalize dftSum sign (2 ^ e) (fun i => x ((2 ^ (e + 2) + i * 4 - 1) % 2 ^ (e + 2))) k = Z' at *
      generalize dftSum sign (2 ^ (e + 1)) (fun i => x (i * 2)) k = U at *
      rw [z, z', u0, u2, u4, sp]
      refine ⟨?_, ?_, ?_, ?_⟩
      · rw [conj_eq, map_mul, ← conj_eq, ← conj_eq, b, conj_cis, ← neg_mul]
        linear_combination (cis (2 ^ (e + 2)) (sign * k) * Z + cis (2 ^ (e + 2)) (-sign * k) * Z') * a
      · linear_combination Z * t1 + Z' * t2
      · have h2 := (sinv_mul_s (e + 2) k).1
        have : sdiv2 (2 ^ (e + 2)) k = s (2 ^ (e + 2)) k * sinv (2 ^ (e + 2 + 1)) k := by rw [sdiv2, pow_succ 2 (e + 2), mul_comm 2]
        rw [this, show e + 1 + 2 = e + 2 + 1 by ring]
        linear_combination (Z * t1 + Z' * t2) * (s (2 ^ (e + 2)) k * sinv (2 ^ (e + 2 + 1)) k)
          + (cis (2 ^ (e + 2)) (sign * k) * Z + cis (2 ^ (e + 2)) (-sign * k) * Z') * sinv (2 ^ (e + 2 + 1)) k * h2
      · rw [show e + 1 + 1 = e + 2 by ring]
        have h4 := sdiv4_mul (e + 2) k
        linear_combination (Z * t1 + Z' * t2) * sdiv4 (2 ^ (e + 2)) k
          + (U + cis (2 ^ (e + 2)) (sign * k) * Z + cis (2 ^ (e + 2)) (-sign * k) * Z') * h4

theorem isPowerOfTwo_ok {n : ℕ} (h : isPowerOfTwo n = true) : ∃ e, n = 2 ^ e := by
  simp only [isPowerOfTwo, Bool.and_eq_true, decide_eq_true_eq] at h
  obtain ⟨h0, h1⟩ := h
  rw [Nat.and_comm] at h1
  exact (Nat.and_sub_one_eq_zero_iff_isPowerOfTwo (by omega)).1 h1

/-- parameters for which Rader's algorithm is applied to primes only -/
def Magic.Ok (mp : Magic) : Prop := 2 ≤ mp.raderMin ∧ ∀ p ∈ mp.raderList, p.Prime

theorem dft_ok (mp : Magic) (hmp : mp.Ok) (n : ℕ) : IsDft (dft mp) n := by
  induction n using Nat.strong_induction_on with
  | _ n ih =>
    intro sign hs x k hk
    rw [dft, array, if_pos hk]
    have hn : 0 < n := by omega
    have hrec : ∀ m < n, IsDft (fun sg m x => if m < n then dft mp sg m x else 0) m := by
      intro m hm sg hsg y j hj
      simp only [if_pos hm]
      exact ih m hm sg hsg y j hj
    obtain ⟨hd, hsq, hpr, hpos⟩ := chooseFactor_ok n hn
    unfold algorithm
    generalize chooseFactor n = r at *
    split
    · rename_i h
      have hp := hmp.2 n h
      exact dftRader_ok mp _ sign n hp (hrec _ (by omega)) x k hk
    split
    · rename_i h1
      rcases hpr h1 with rfl | hp
      · rw [if_neg (by have := hmp.1; omega)]
        exact dftPrime_ok sign 1 (by omega) x k hk
      · split
        · exact dftRader_ok mp _ sign n hp (hrec _ (by omega)) x k hk
        · exact dftPrime_ok sign n (hp.eq_two_or_odd.imp id id) x k hk
    rename_i h1
    have hr2 : 2 ≤ r := by omega
    have hrn : r < n := by nlinarith
    obtain ⟨q, rfl⟩ := hd
    have hq : r * q / r = q := Nat.mul_div_cancel_left q (by omega)
    have hqn : q < r * q := by
      have : 0 < q := Nat.pos_of_ne_zero (by rintro rfl; simp at hn)
      nlinarith
    rw [hq]
    split
    · rename_i hg
      rw [gcd_eq] at hg
      exact primeFactor_ok _ sign hs r q hg (hrec r hrn) (hrec q hqn) x k hk
    split
    · rename_i h4
      obtain ⟨m, hm⟩ : ∃ m, r * q = 4 * m := ⟨r * q / 4, by omega⟩
      rw [hm] at hrec hk h4 ⊢
      split
      · rename_i hpw
        simp only [Bool.and_eq_true] at hpw
        obtain ⟨e, he⟩ := isPowerOfTwo_ok hpw.2
        rw [he] at hk ⊢
        exact (newsplit_ok hs e x k hk).1
      · split
        · exact splitRadixDif_ok _ sign hs m (hrec m (by omega)) (hrec (2 * m) (by omega)) x k hk
        · exact splitRadixDit_ok _ sign hs m (hrec m (by omega)) (hrec (2 * m) (by omega)) x k hk
    · exact cooleyTukey_ok _ sign hs r q (hrec r hrn) (hrec q hqn) x k hk

end FFTW.Genfft
