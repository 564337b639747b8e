import Verif.Model.Trig
import Mathlib.Tactic.Linarith
import Mathlib.Tactic.FieldSimp

namespace FFTW.Trig
open Real

theorem by2pi_range {m q : Int} (hq : 0 < q) (h0 : 0 ≤ m) (h1 : 2 * m ≤ q) :
    0 ≤ by2pi m (q + q + (q + q)) ∧ by2pi m (q + q + (q + q)) ≤ π / 4 := by
  unfold by2pi
  have hq' : (0 : ℝ) < q := by exact_mod_cast hq
  have h0' : (0 : ℝ) ≤ m := by exact_mod_cast h0
  have h1' : 2 * (m : ℝ) ≤ q := by exact_mod_cast h1
  push_cast
  constructor
  · have := pi_pos; positivity
  · rw [div_le_iff₀ (by positivity)]
    nlinarith [pi_pos]

theorem realCexp_eq {COS SIN : ℝ → ℝ} (hc : ∀ x, 0 ≤ x → x ≤ π / 4 → COS x = cos x)
    (hs : ∀ x, 0 ≤ x → x ≤ π / 4 → SIN x = sin x) {m n : Int} (hn : 0 < n) (h1 : -n ≤ m) (h2 : m ≤ n) :
    realCexp COS SIN m n = (cos (2 * π * m / n), sin (2 * π * m / n)) := by
  have hnR : (n : ℝ) ≠ 0 := by exact_mod_cast hn.ne'
  -- reduce to cos/sin of by2pi
  have step : ∀ k : Int, 0 ≤ k → 2 * k ≤ n → COS (by2pi k (n + n + (n + n))) = cos (by2pi k (n + n + (n + n))) ∧
      SIN (by2pi k (n + n + (n + n))) = sin (by2pi k (n + n + (n + n))) := by
    intro k h0 h1
    obtain ⟨ha, hb⟩ := by2pi_range hn h0 h1
    exact ⟨hc _ ha hb, hs _ ha hb⟩
  -- angle identities
  have aneg : ∀ k : Int, by2pi (k + (n + n + (n + n))) (n + n + (n + n)) = by2pi k (n + n + (n + n)) + 2 * π := by
    intro k; unfold by2pi; push_cast; field_simp
  have asub : ∀ k : Int, by2pi ((n + n + (n + n)) - k) (n + n + (n + n)) = 2 * π - by2pi k (n + n + (n + n)) := by
    intro k; unfold by2pi; push_cast; field_simp
  have aq : ∀ k : Int, by2pi (k - n) (n + n + (n + n)) = by2pi k (n + n + (n + n)) - π / 2 := by
    intro k; unfold by2pi; push_cast; field_simp; ring
  have aqs : ∀ k : Int, by2pi (n - k) (n + n + (n + n)) = π / 2 - by2pi k (n + n + (n + n)) := by
    intro k; unfold by2pi; push_cast; field_simp; ring
  have a4 : by2pi (m + m + (m + m)) (n + n + (n + n)) = 2 * π * m / n := by
    unfold by2pi; push_cast; field_simp
  rw [← a4]
  have cneg := aneg (m + m + (m + m))
  have leaf : ∀ M : Int, 0 ≤ M → M ≤ n + n + (n + n) → ∀ k : Int, (k = n + n + (n + n)) →
      cexpTail COS SIN M k n = (cos (by2pi M k), sin (by2pi M k)) := by
    rintro M h0 h1 k rfl
    unfold cexpTail
    simp only [Id.run, pure]
    by_cases h4 : M > n + n + (n + n) - M
    · by_cases h2 : n + n + (n + n) - M - n > 0
      · by_cases h1 : n + n + (n + n) - M - n > n - (n + n + (n + n) - M - n)
        · simp (config := { decide := true }) only [if_pos h4, if_pos h2, if_pos h1, if_true, if_false]
          rw [(step _ (by omega) (by omega)).1, (step _ (by omega) (by omega)).2]
          simp [aqs, aq, asub, cos_pi_div_two_sub, sin_pi_div_two_sub, cos_sub_pi_div_two, sin_sub_pi_div_two]
        · simp (config := { decide := true }) only [if_pos h4, if_pos h2, if_neg h1, if_true, if_false]
          rw [(step _ (by omega) (by omega)).1, (step _ (by omega) (by omega)).2]
          simp [aqs, aq, asub, cos_sub_pi_div_two, sin_sub_pi_div_two]
      · by_cases h1 : n + n + (n + n) - M > n - (n + n + (n + n) - M)
        · simp (config := { decide := true }) only [if_pos h4, if_neg h2, if_pos h1, if_true, if_false]
          rw [(step _ (by omega) (by omega)).1, (step _ (by omega) (by omega)).2]
          simp [aqs, aq, asub, cos_pi_div_two_sub, sin_pi_div_two_sub, cos_sub_pi_div_two, sin_sub_pi_div_two]
        · simp (config := { decide := true }) only [if_pos h4, if_neg h2, if_neg h1, if_true, if_false]
          rw [(step _ (by omega) (by omega)).1, (step _ (by omega) (by omega)).2]
          simp [aqs, aq, asub, cos_sub_pi_div_two, sin_sub_pi_div_two]
    · by_cases h2 : M - n > 0
      · by_cases h1 : M - n > n - (M - n)
        · simp (config := { decide := true }) only [if_neg h4, if_pos h2, if_pos h1, if_true, if_false]
          rw [(step _ (by omega) (by omega)).1, (step _ (by omega) (by omega)).2]
          simp [aqs, aq, asub, cos_pi_div_two_sub, sin_pi_div_two_sub, cos_sub_pi_div_two, sin_sub_pi_div_two]
        · simp (config := { decide := true }) only [if_neg h4, if_pos h2, if_neg h1, if_true, if_false]
          rw [(step _ (by omega) (by omega)).1, (step _ (by omega) (by omega)).2]
          simp [aqs, aq, asub, cos_sub_pi_div_two, sin_sub_pi_div_two]
      · by_cases h1 : M > n - M
        · simp (config := { decide := true }) only [if_neg h4, if_neg h2, if_pos h1, if_true, if_false]
          rw [(step _ (by omega) (by omega)).1, (step _ (by omega) (by omega)).2]
          simp [aqs, aq, asub, cos_pi_div_two_sub, sin_pi_div_two_sub, cos_sub_pi_div_two, sin_sub_pi_div_two]
        · simp (config := { decide := true }) only [if_neg h4, if_neg h2, if_neg h1, if_true, if_false]
          rw [(step _ (by omega) (by omega)).1, (step _ (by omega) (by omega)).2]
  unfold realCexp
  simp only [Id.run, pure]
  by_cases hm : m + m + (m + m) < 0
  · rw [if_pos hm, leaf _ (by omega) (by omega) _ rfl, cneg]
    simp
  · rw [if_neg hm, leaf _ (by omega) (by omega) _ rfl]

/-- 4^(s-1) ≤ n < 4^s for s = chooseTwshft n -/
theorem chooseTwshft_spec (n : ℕ) : n < 4 ^ chooseTwshft n ∧ (0 < n → 4 ^ (chooseTwshft n) ≤ 4 * n) := by
  induction n using Nat.strong_induction_on with
  | _ n ih =>
    rw [chooseTwshft]
    split
    · rename_i h
      obtain ⟨h1, h2⟩ := ih (n / 4) (by omega)
      refine ⟨by rw [pow_succ]; omega, fun _ => ?_⟩
      by_cases h4 : 0 < n / 4
      · have := h2 h4
        rw [pow_succ]; omega
      · have : n / 4 = 0 := by omega
        rw [this, chooseTwshft]
        simp
        omega
    · omega

theorem twradix_le (n : ℕ) (hn : 0 < n) : 2 ^ chooseTwshft n ≤ n + 1 := by
  obtain ⟨_, h⟩ := chooseTwshft_spec n
  have h := h hn
  have e : (4 : ℕ) ^ chooseTwshft n = 2 ^ chooseTwshft n * 2 ^ chooseTwshft n := by
    rw [← mul_pow]; norm_num
  rw [e] at h
  generalize 2 ^ chooseTwshft n = x at *
  by_contra hc
  have h2 : n + 2 ≤ x := by omega
  nlinarith

theorem flatMap_pair_get (f : ℕ → ℝ × ℝ) (k i : ℕ) (hi : i < k) :
    ((List.range k).flatMap fun i => [(f i).1, (f i).2])[2 * i]? = some (f i).1 ∧
    ((List.range k).flatMap fun i => [(f i).1, (f i).2])[2 * i + 1]? = some (f i).2 := by
  induction k with
  | zero => omega
  | succ k ih =>
    rw [List.range_succ, List.flatMap_append]
    have hlen : ((List.range k).flatMap fun i => [(f i).1, (f i).2]).length = 2 * k := by
      simp [List.length_flatMap, mul_comm]
    by_cases h : i < k
    · obtain ⟨h1, h2⟩ := ih h
      rw [List.getElem?_append_left (by rw [hlen]; omega), List.getElem?_append_left (by rw [hlen]; omega)]
      exact ⟨h1, h2⟩
    · have : i = k := by omega
      subst this
      rw [List.getElem?_append_right (by rw [hlen]), List.getElem?_append_right (by rw [hlen]; omega), hlen]
      simp

theorem cexplSqrtn_eq {COS SIN : ℝ → ℝ} (hc : ∀ x, 0 ≤ x → x ≤ π / 4 → COS x = cos x)
    (hs : ∀ x, 0 ≤ x → x ≤ π / 4 → SIN x = sin x) {m : Int} {n : ℕ} (h1 : -(n : Int) ≤ m) (h2 : m < n) :
    cexplSqrtn (mkSqrtn COS SIN n) m = some (cos (2 * π * m / n), sin (2 * π * m / n)) := by
  have hn : 0 < n := by omega
  have hnR : (n : ℝ) ≠ 0 := by exact_mod_cast hn.ne'
  -- the reduced index
  obtain ⟨M, hM, hMn⟩ : ∃ M : ℕ, (M : Int) = m + n * (if m < 0 then 1 else 0) ∧ M < n := by
    refine ⟨(m + n * (if m < 0 then 1 else 0)).toNat, ?_, ?_⟩ <;> split <;> omega
  have hang : cos (2 * π * m / n) = cos (2 * π * M / n) ∧ sin (2 * π * m / n) = sin (2 * π * M / n) := by
    by_cases hm : m < 0
    · have : (M : ℝ) = m + n := by have := hM; rw [if_pos hm] at this; exact_mod_cast (by simpa using this)
      have e : 2 * π * M / n = 2 * π * m / n + 2 * π := by rw [this]; field_simp
      rw [e]; simp
    · have : (M : ℝ) = m := by have := hM; rw [if_neg hm] at this; exact_mod_cast (by simpa using this)
      rw [this]; simp
  have hr := twradix_le n hn
  set s := chooseTwshft n with hsdef
  have hR : 0 < 2 ^ s := by positivity
  unfold cexplSqrtn mkSqrtn
  simp only [← hM, Int.toNat_natCast, ← hsdef, Nat.one_shiftLeft, Nat.and_two_pow_sub_one_eq_mod, Nat.shiftRight_eq_div_pow]
  have hm0 : M % 2 ^ s < 2 ^ s := Nat.mod_lt _ hR
  have hm1 : M / 2 ^ s < (n + 2 ^ s - 1) / 2 ^ s := by
    rw [Nat.lt_iff_add_one_le, Nat.le_div_iff_mul_le hR, add_mul, one_mul]
    have := Nat.div_mul_le_self M (2 ^ s)
    omega
  obtain ⟨a1, a2⟩ := flatMap_pair_get (fun i => realCexp COS SIN i n) (2 ^ s) (M % 2 ^ s) hm0
  obtain ⟨b1, b2⟩ := flatMap_pair_get (fun i => realCexp COS SIN ((i * 2 ^ s : ℕ) : Int) n) ((n + 2 ^ s - 1) / 2 ^ s) (M / 2 ^ s) hm1
  simp only [a1, a2, b1, b2, Option.bind_eq_bind, Option.bind_some]
  have hle : M / 2 ^ s * 2 ^ s ≤ M := Nat.div_mul_le_self M (2 ^ s)
  rw [realCexp_eq hc hs (by omega) (by omega) (by omega), realCexp_eq hc hs (by omega) (by omega) (by omega)]
  change some _ = some _
  rw [hang.1, hang.2]
  have hsum : 2 * π * M / n = 2 * π * ((M / 2 ^ s * 2 ^ s : ℕ) : ℝ) / n + 2 * π * ((M % 2 ^ s : ℕ) : ℝ) / n := by
    have hdm : M = M / 2 ^ s * 2 ^ s + M % 2 ^ s := (Nat.div_add_mod' M (2 ^ s)).symm
    conv_lhs => rw [hdm]
    push_cast
    field_simp
  rw [hsum, cos_add, sin_add]
  push_cast
  congr 2
  

end FFTW.Trig
