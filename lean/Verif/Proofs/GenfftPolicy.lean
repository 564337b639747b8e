import Verif.Proofs.GenfftTw

namespace FFTW.Genfft
open Finset

theorem isPow_pow {m : ℕ} (hm : 1 < m) (t : ℕ) : isPow m (m ^ t) = true ∧ log m (m ^ t) = t := by
  induction t with
  | zero => rw [isPow, log]; simp
  | succ t ih =>
    have h1 : m ^ (t + 1) ≠ 1 := by
      rw [pow_succ]; intro h
      have := Nat.eq_one_of_mul_eq_one_left h
      omega
    have h2 : ¬ (m ^ (t + 1) = 0 ∨ m ≤ 1) := by
      rintro (h | h)
      · exact absurd h (pow_ne_zero _ (by omega))
      · omega
    have h3 : m ^ (t + 1) / m = m ^ t := by rw [pow_succ, Nat.mul_div_cancel _ (by omega)]
    rw [isPow, log, if_neg h1, if_neg h1, dif_neg h2, dif_neg h2, h3, ih.1, ih.2]
    exact ⟨by simp [pow_succ], by omega⟩

theorem isPow_iff {m : ℕ} (hm : 1 < m) (n : ℕ) : isPow m n = true ↔ ∃ t, n = m ^ t := by
  constructor
  · induction n using Nat.strong_induction_on with
    | _ n ih =>
      intro h
      rw [isPow] at h
      by_cases h1 : n = 1
      · exact ⟨0, by simpa using h1⟩
      rw [if_neg h1] at h
      split at h
      · simp at h
      rename_i h2
      simp only [Bool.and_eq_true, decide_eq_true_eq] at h
      obtain ⟨t, ht⟩ := ih (n / m) (Nat.div_lt_self (by omega) hm) h.2
      exact ⟨t + 1, by rw [pow_succ, ← ht, Nat.div_mul_cancel (Nat.dvd_of_mod_eq_zero h.1)]⟩
  · rintro ⟨t, rfl⟩; exact (isPow_pow hm t).1

theorem largestPower_ok {m : ℕ} (hm : 1 < m) (i : ℕ) (hi : 0 < i) : ∃ t, largestPower m i = m ^ t ∧ m ^ t ≤ i ∧ i < m ^ (t + 1) := by
  induction i with
  | zero => omega
  | succ i ih =>
    rw [largestPower]
    split
    · rename_i h
      obtain ⟨t, ht⟩ := (isPow_iff hm _).1 h
      exact ⟨t, ht, ht.ge, by rw [ht]; exact Nat.pow_lt_pow_right hm (by omega)⟩
    · rename_i h
      have h0 : i ≠ 0 := by rintro rfl; exact h ((isPow_iff hm _).2 ⟨0, by simp⟩)
      obtain ⟨t, h1, h2, h3⟩ := ih (by omega)
      refine ⟨t, h1, by omega, ?_⟩
      rcases Nat.lt_or_eq_of_le (show i + 1 ≤ m ^ (t + 1) by omega) with h4 | h4
      · exact h4
      · exact absurd ((isPow_iff hm _).2 ⟨_, h4⟩) h

theorem smallestPower_ok {m : ℕ} (hm : 1 < m) (t : ℕ) : ∀ e i, i + e = m ^ (t + 1) → m ^ t < i → smallestPower m i = some (m ^ (t + 1)) := by
  intro e
  induction e with
  | zero =>
    intro i h _
    rw [smallestPower, if_pos ((isPow_iff hm _).2 ⟨t + 1, by omega⟩)]
    simp at h; rw [h]
  | succ e ih =>
    intro i h h2
    rw [smallestPower, if_neg]
    · exact ih (i + 1) (by omega) (by omega)
    · rw [isPow_iff hm]
      rintro ⟨s, rfl⟩
      have a := (Nat.pow_lt_pow_iff_right hm).1 h2
      have b : s < t + 1 := (Nat.pow_lt_pow_iff_right hm).1 (show m ^ s < m ^ (t + 1) by omega)
      omega

theorem bytwiddle_val {u : ℂ} (n : ℕ) (g : ℕ → Option ℂ) (h : ∀ i, 0 < i → i < n → g i = some (u ^ i)) (sign : ℤ) (f : Signal) (i : ℕ) (hi : i < n) :
    makeBytwiddle sign g f i = (if sign = 1 then u else conj u) ^ i * f i := by
  unfold makeBytwiddle
  split
  · subst_vars; simp
  · rw [h i (by omega) hi]
    dsimp only
    split
    · rfl
    · rw [conj_pow]

/-! ### `load_all` -/

theorem loadAll_good (n : ℕ) (hn : 0 < n) : loadAll.Good n (fun t => t + 1) where
  even := by simp [loadAll]; omega
  table := by
    intro cexp N l
    simp only [loadAll, List.flatMap_cons, List.flatMap_nil, List.append_nil, Twiddle.emit, Nat.mul_div_cancel_left _ (show 0 < 2 by omega)]
    rfl
  le := by
    intro t ht
    simp only [loadAll] at ht
    omega
  val := by
    intro u _ w hw sign f i hi
    refine bytwiddle_val n (fun i => some (w (i - 1))) (fun i h0 h1 => ?_) sign f i hi
    rw [hw _ (by simp only [loadAll]; omega), Nat.sub_add_cancel h0]
  origin := by intro p hp; simp only [loadAll, List.mem_singleton] at hp; rw [hp]

/-! ### `log2` -/

theorem range_pow2 (n : ℕ) : ((List.range n).flatMap fun i => if i > 0 && isPow 2 i then [(⟨.cexp, 0, i⟩ : Twiddle.Instr)] else []) =
    (List.range (Nat.clog 2 n)).map fun t => ⟨.cexp, 0, (2 ^ t : ℕ)⟩ := by
  induction n with
  | zero => simp
  | succ n ih =>
    rw [List.range_succ, List.flatMap_append, ih]
    simp only [List.flatMap_cons, List.flatMap_nil, List.append_nil]
    split
    · rename_i h
      simp only [gt_iff_lt, Bool.and_eq_true, decide_eq_true_eq] at h
      obtain ⟨t, rfl⟩ := (isPow_iff (by omega) _).1 h.2
      have e1 : Nat.clog 2 (2 ^ t) = t := Nat.clog_pow 2 t (by omega)
      have e2 : Nat.clog 2 (2 ^ t + 1) = t + 1 := by
        apply le_antisymm
        · rw [Nat.clog_le_iff_le_pow (by omega), pow_succ]; omega
        · by_contra hcon
          have : 2 ^ t + 1 ≤ 2 ^ t := (Nat.clog_le_iff_le_pow (by omega)).1 (by omega)
          omega
      rw [e1, e2, List.range_succ, List.map_append]
      rfl
    · rename_i h
      rw [List.append_nil]
      congr 2
      apply le_antisymm
      · exact Nat.clog_mono_right 2 (by omega)
      · rw [Nat.clog_le_iff_le_pow (by omega)]
        by_cases h0 : n = 0
        · subst h0; simp
        have : n ≤ 2 ^ Nat.clog 2 n := Nat.le_pow_clog (by omega) n
        rcases Nat.lt_or_eq_of_le this with h1 | h1
        · exact h1
        · exfalso; apply h
          simp only [gt_iff_lt, Bool.and_eq_true, decide_eq_true_eq]
          exact ⟨by omega, (isPow_iff (by omega) _).2 ⟨_, h1⟩⟩

theorem log2_twidlen (n : ℕ) (hn : 2 ≤ n) : log2Policy.twidlen n = 2 * Nat.clog 2 n := by
  simp only [log2Policy]
  obtain ⟨t, h1, h2, h3⟩ := largestPower_ok (m := 2) (by omega) (2 * n - 1) (by omega)
  rw [h1, (isPow_pow (by omega) t).2]
  congr 1
  apply le_antisymm
  · by_contra hcon
    have hlt : Nat.clog 2 n < t := by omega
    have := Nat.le_pow_clog (b := 2) (by omega) n
    have h4 : 2 ^ (Nat.clog 2 n + 1) ≤ 2 ^ t := Nat.pow_le_pow_right (by omega) hlt
    rw [pow_succ] at h4
    omega
  · rw [Nat.clog_le_iff_le_pow (by omega)]
    rw [pow_succ] at h3; omega

theorem log2_good (n : ℕ) (hn : 2 ≤ n) : log2Policy.Good n (fun t => 2 ^ t) where
  even := by rw [log2_twidlen n hn]; omega
  table := by
    intro cexp N l
    rw [log2_twidlen n hn, Nat.mul_div_cancel_left _ (by omega)]
    simp only [log2Policy]
    rw [range_pow2, List.flatMap_map]
    congr 1
  le := by
    intro t ht
    rw [log2_twidlen n hn, Nat.mul_div_cancel_left _ (by omega)] at ht
    by_contra hcon
    have := (Nat.clog_le_iff_le_pow (b := 2) (by omega)).2 (show n ≤ 2 ^ t by omega)
    omega
  val := by
    intro u _ w hw sign f i hi
    rw [log2_twidlen n hn, Nat.mul_div_cancel_left _ (by omega)] at hw
    refine bytwiddle_val n _ (fun i _ h1 => ?_) sign f i hi
    induction i using Nat.strong_induction_on with
    | _ i ih =>
      have hw' : ∀ t, 2 ^ t < n → w t = u ^ 2 ^ t := fun t ht => hw t (by
        by_contra hcon
        have := (Nat.clog_le_iff_le_pow (b := 2) (x := n) (y := t) (by omega)).1 (by omega)
        omega)
      rw [log2G.eq_def]
      dsimp only
      by_cases hi0 : i = 0
      · subst hi0; simp
      rw [if_neg hi0]
      split
      · rename_i hp
        obtain ⟨t, rfl⟩ := (isPow_iff (by omega) _).1 hp
        rw [(isPow_pow (by omega) t).2, hw' t h1]
      · rename_i hp
        obtain ⟨t, e, h2, h3⟩ := largestPower_ok (m := 2) (by omega) i (by omega)
        have hne : 2 ^ t ≠ i := fun h => hp ((isPow_iff (by omega) _).2 ⟨t, h.symm⟩)
        have h0 : 0 < 2 ^ t := by positivity
        rw [e, if_pos (by omega), if_pos (by omega), ih _ (by omega) (by omega) (by omega), ih _ (by omega) (by omega) (by omega)]
        simp only [Option.bind_eq_bind, Option.bind_some, ← pow_add]
        congr 2; omega
  origin := by
    intro p hp
    simp only [log2Policy, List.mem_flatMap, List.mem_range] at hp
    obtain ⟨i, _, hp⟩ := hp
    split at hp
    · rw [List.mem_singleton.1 hp]
    · simp at hp

/-! ### `log3` -/

theorem termsNeeded_ok (n : ℕ) : ∀ e i pi s, pi = 3 ^ i → 2 * s + 1 = 3 ^ i → n - s ≤ e → (∀ j < i, 3 ^ j < 2 * n - 1 ) →
    n ≤ (3 ^ termsNeeded i pi s n - 1) / 2 + 1 ∧ ∀ j < termsNeeded i pi s n, 3 ^ j < 2 * n - 1 := by
  intro e
  induction e with
  | zero =>
    intro i pi s h1 h2 h3 h4
    rw [termsNeeded, dif_pos (by omega)]
    exact ⟨by omega, h4⟩
  | succ e ih =>
    intro i pi s h1 h2 h3 h4
    rw [termsNeeded]
    split
    · rename_i h
      have : pi ≠ 0 := by rw [h1]; positivity
      exact ⟨by omega, h4⟩
    · rename_i h
      push Not at h
      refine ih (i + 1) _ _ (by rw [h1, pow_succ]; ring) (by rw [pow_succ]; omega) (by omega) ?_
      intro j hj
      rcases Nat.lt_succ_iff_lt_or_eq.1 hj with hj | rfl
      · exact h4 j hj
      · omega

theorem terms_ok (n : ℕ) : n ≤ (3 ^ termsNeeded 0 1 0 n - 1) / 2 + 1 ∧ ∀ j < termsNeeded 0 1 0 n, 3 ^ j < 2 * n - 1 :=
  termsNeeded_ok n n 0 1 0 (by simp) (by simp) (by omega) (by simp)

theorem lt_terms {n t : ℕ} (h : 3 ^ t < 2 * n - 1) : t < termsNeeded 0 1 0 n := by
  by_contra hcon
  have h1 := (terms_ok n).1
  have h2 : 3 ^ termsNeeded 0 1 0 n ≤ 3 ^ t := Nat.pow_le_pow_right (by omega) (by omega)
  have h3 : 0 < 3 ^ termsNeeded 0 1 0 n := by positivity
  omega

theorem log3_good (n : ℕ) (hn : 2 ≤ n) : log3Policy.Good n (fun t => min (3 ^ t) (n - 1)) where
  even := by simp only [log3Policy]; omega
  table := by
    intro cexp N l
    simp only [log3Policy]
    rw [List.flatMap_map]
    congr 1
  le := by intro t _; omega
  val := by
    intro u hu w hw sign f i hi
    simp only [log3Policy, Nat.mul_div_cancel_left _ (show 0 < 2 by omega)] at hw
    refine bytwiddle_val n _ (fun i _ h1 => ?_) sign f i hi
    -- powers of three
    have hpow : ∀ t, 3 ^ t < n → log3G n w (3 ^ t) = some (u ^ 3 ^ t) := by
      intro t ht
      have h0 : 3 ^ t ≠ 0 := by positivity
      rw [log3G.eq_def]
      dsimp only
      rw [if_neg h0, if_pos (isPow_pow (by omega) t).1, (isPow_pow (by omega) t).2, hw t (lt_terms (by omega)), min_eq_left (by omega)]
    have hmax : ∀ t, 3 ^ t < 2 * n - 1 → n ≤ 3 ^ t → n ≤ 3 ^ (termsNeeded 0 1 0 n - 1) := by
      intro t ht hn'
      have := lt_terms ht
      exact hn'.trans (Nat.pow_le_pow_right (by omega) (by omega))
    have hlast : n ≤ 3 ^ (termsNeeded 0 1 0 n - 1) → log3G n w (n - 1) = some (u ^ (n - 1)) := by
      intro h
      by_cases hp : isPow 3 (n - 1) = true
      · obtain ⟨t, ht⟩ := (isPow_iff (by omega) _).1 hp
        rw [ht]; exact hpow t (by omega)
      · have hpos : termsNeeded 0 1 0 n - 1 < termsNeeded 0 1 0 n := by
          have := lt_terms (n := n) (t := 0) (by simp; omega)
          omega
        rw [log3G.eq_def]
        dsimp only
        rw [if_neg (by omega), if_neg hp, if_pos ⟨rfl, h⟩, hw _ hpos, min_eq_right (by omega)]
    induction i using Nat.strong_induction_on with
    | _ i ih =>
      by_cases hi0 : i = 0
      · subst hi0; rw [log3G.eq_def]; simp
      by_cases hp : isPow 3 i = true
      · obtain ⟨t, rfl⟩ := (isPow_iff (by omega) _).1 hp
        exact hpow t h1
      by_cases hl : i = n - 1 ∧ 3 ^ (termsNeeded 0 1 0 n - 1) ≥ n
      · rw [hl.1]; exact hlast hl.2
      rw [log3G.eq_def]
      dsimp only
      rw [if_neg hi0, if_neg hp, if_neg hl]
      obtain ⟨t, e, h2, h3⟩ := largestPower_ok (m := 3) (by omega) i (by omega)
      have hne : 3 ^ t ≠ i := fun h => hp ((isPow_iff (by omega) _).2 ⟨t, h.symm⟩)
      have h0 : 0 < 3 ^ t := by positivity
      rw [smallestPower_ok (by omega) t (3 ^ (t + 1) - i) i (by omega) (by omega)]
      simp only [Option.bind_eq_bind, Option.bind_some]
      have hodd : 3 ^ (t + 1) % 2 = 1 := by rw [Nat.pow_mod]; simp
      split
      · rename_i hge
        have hx : ∃ x, min (3 ^ (t + 1)) (n - 1) = x ∧ i < x ∧ x < n ∧ x - i < i ∧ log3G n w x = some (u ^ x) := by
          rcases Nat.lt_or_ge (3 ^ (t + 1)) n with hc | hc
          · exact ⟨3 ^ (t + 1), min_eq_left (by omega), h3, hc, by omega, hpow _ hc⟩
          · have hm := hmax (t + 1) (by omega) hc
            have : i ≠ n - 1 := fun h => hl ⟨h, hm⟩
            exact ⟨n - 1, min_eq_right (by omega), by omega, by omega, by omega, hlast hm⟩
        obtain ⟨x, e1, e2, e3, e4, e5⟩ := hx
        rw [e1, if_pos (by omega), if_pos (by omega), e5, ih (x - i) e4 (by omega) (by omega)]
        simp only [Option.bind_some, Option.some.injEq]
        rw [conj_pow]
        calc conj u ^ (x - i) * u ^ x = conj u ^ (x - i) * (u ^ (x - i) * u ^ i) := by rw [← pow_add]; congr 2; omega
          _ = (conj u * u) ^ (x - i) * u ^ i := by rw [mul_pow]; ring
          _ = u ^ i := by rw [hu, one_pow, one_mul]
      · rw [e, if_pos (by omega), if_pos (by omega), hpow t (by omega), ih (i - 3 ^ t) (by omega) (by omega) (by omega)]
        simp only [Option.bind_some, Option.some.injEq, ← pow_add]
        congr 1; omega
  origin := by
    intro p hp
    simp only [log3Policy, List.mem_map] at hp
    obtain ⟨i, _, rfl⟩ := hp
    rfl

end FFTW.Genfft
