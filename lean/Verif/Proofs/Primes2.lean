import Verif.Proofs.Primes1
import Mathlib.Data.Nat.Prime.Basic
import Mathlib.Data.Nat.Prime.Infinite
import Mathlib.Data.Nat.Sqrt
import Mathlib.Data.Nat.Factorization.Basic

namespace FFTW.Primes

/-- largest argument for which `i*i` in the trial-division loops cannot overflow -/
abbrev trialBound : Int := 9223372030926249001

theorem minFac_of_first {n i : ℕ} (hi : 2 ≤ i) (hd : i ∣ n) (hno : ∀ d, 2 ≤ d → d < i → ¬ d ∣ n) : n.minFac = i := by
  have h1 := Nat.minFac_le_of_dvd hi hd
  have hn1 : n ≠ 1 := by rintro rfl; have := Nat.le_of_dvd (by norm_num) hd; omega
  have h2 : 2 ≤ n.minFac := (Nat.minFac_prime hn1).two_le
  by_contra h
  exact hno _ h2 (by omega) (Nat.minFac_dvd n)

theorem minFac_of_none {n i : ℕ} (hn : 2 ≤ n) (hi : n < i * i) (hno : ∀ d, 2 ≤ d → d < i → ¬ d ∣ n) : n.minFac = n := by
  by_contra h
  have hnp : ¬ n.Prime := fun hp => h (hp.minFac_eq)
  have h1 := Nat.minFac_sq_le_self (by omega) hnp
  have h2 : 2 ≤ n.minFac := (Nat.minFac_prime (by omega)).two_le
  refine hno _ h2 ?_ (Nat.minFac_dvd n)
  nlinarith

theorem noDiv_step {n i : ℕ} (hodd : n % 2 = 1) (hi : i % 2 = 1) (hno : ∀ d, 2 ≤ d → d < i → ¬ d ∣ n) (hd : ¬ i ∣ n) :
    ∀ d, 2 ≤ d → d < i + 2 → ¬ d ∣ n := by
  intro d h2 hlt hdvd
  rcases lt_trichotomy d i with h | h | h
  · exact hno d h2 h hdvd
  · subst h; exact hd hdvd
  · have : d = i + 1 := by omega
    subst this
    have h2d : 2 ∣ n := Dvd.dvd.trans (by omega) hdvd
    omega

theorem dvd_iff_emod {n i : ℕ} : ((n : Int) % (i : Int) = 0) ↔ i ∣ n := by
  rw [← Int.natCast_dvd_natCast]; exact ⟨Int.dvd_of_emod_eq_zero, Int.emod_eq_zero_of_dvd⟩

theorem firstDivisorLoop_some {n : ℕ} (hn2 : 2 ≤ n) (hodd : n % 2 = 1) (hn : (n : Int) < trialBound) (k : ℕ) :
    ∀ i : ℕ, n + 2 - i ≤ k → 3 ≤ i → i % 2 = 1 → (i - 2) * (i - 2) ≤ n → (∀ d, 2 ≤ d → d < i → ¬ d ∣ n) →
    firstDivisorLoop i n = some (n.minFac : Int) := by
  unfold trialBound at hn
  induction k with
  | zero =>
    intro i hk hi _ hsq _
    exfalso
    have : i - 2 ≥ n := by omega
    nlinarith
  | succ k ih =>
    intro i hk hi hio hsq hno
    have hib : i ≤ 3037000499 := by
      by_contra h
      have h3 : i - 2 ≥ 3037000499 := by omega
      have : 3037000499 * 3037000499 ≤ (i-2)*(i-2) := Nat.mul_le_mul h3 h3
      omega
    have hii : i * i ≤ 3037000499 * 3037000499 := Nat.mul_le_mul hib hib
    rw [firstDivisorLoop]
    have hiiZ : (i : Int) * i ≤ 9223372030926249001 := by exact_mod_cast hii
    have hiiZ0 : (0 : Int) ≤ (i : Int) * i := by positivity
    rw [cmul_some (by rw [isINT_iff]; omega)]
    simp only [Option.bind_eq_bind, Option.bind_some]
    split
    · rename_i hle
      rw [cmod_some (by omega) (by unfold INT_MAX; omega) (by omega)]
      simp only [Option.bind_some]
      have hle' : i * i ≤ n := by exact_mod_cast hle
      have hin : i ≤ n := le_trans (Nat.le_mul_self i) hle'
      split
      · rename_i hd
        rw [minFac_of_first (by omega) (dvd_iff_emod.1 hd) hno]; rfl
      · rename_i hd
        rw [cadd_some (by rw [isINT_iff]; omega)]
        simp only [Option.bind_some]
        have : ((i : Int) + 2) = ((i + 2 : ℕ) : Int) := by push_cast; rfl
        rw [this]
        refine ih (i + 2) (by omega) (by omega) (by omega) (by simpa using hle') ?_
        exact noDiv_step hodd hio hno (fun h => hd (dvd_iff_emod.2 h))
    · rename_i hle
      have hle' : n < i * i := by have := not_le.1 hle; exact_mod_cast this
      rw [minFac_of_none hn2 hle' hno]; rfl

theorem firstDivisor_some {n : ℕ} (hn2 : 2 ≤ n) (hn : (n : Int) < trialBound) :
    firstDivisor n = some (n.minFac : Int) := by
  have hn' := hn
  unfold trialBound at hn'
  unfold firstDivisor
  rw [if_neg (by omega), cmod_some (by omega) (by unfold INT_MAX; omega) (by omega)]
  simp only [Option.bind_eq_bind, Option.bind_some]
  split
  · rename_i h
    have : 2 ∣ n := by omega
    rw [(Nat.minFac_eq_two_iff n).2 this]; rfl
  · rename_i h
    refine firstDivisorLoop_some hn2 (by omega) hn (n + 2) 3 (by omega) (by omega) rfl (by omega) ?_
    intro d h2 h3 hd
    have : d = 2 := by omega
    subst this; omega

/-- the loop reaches `i` unless it stopped before -/
theorem firstDivisorLoop_none {n : ℕ} (hpr : n.Prime) (hodd : n % 2 = 1) (hn : trialBound ≤ (n : Int)) (hnI : (n : Int) ≤ INT_MAX) (k : ℕ) :
    ∀ i : ℕ, 3037000501 - i ≤ k → 3 ≤ i → i % 2 = 1 → i ≤ 3037000501 → firstDivisorLoop i n = none := by
  unfold trialBound at hn
  induction k with
  | zero =>
    intro i hk hi hio hib
    have : i = 3037000501 := by omega
    subst this
    rw [firstDivisorLoop]
    have : cmul ((3037000501 : ℕ) : Int) ((3037000501 : ℕ) : Int) = none := by decide +kernel
    rw [this]; rfl
  | succ k ih =>
    intro i hk hi hio hib
    by_cases hie : i = 3037000501
    · exact ih i (by omega) hi hio hib
    have hib : i ≤ 3037000499 := by omega
    have hii : i * i ≤ 3037000499 * 3037000499 := Nat.mul_le_mul hib hib
    rw [firstDivisorLoop]
    have hiiZ : (i : Int) * i ≤ 9223372030926249001 := by exact_mod_cast hii
    have hiiZ0 : (0 : Int) ≤ (i : Int) * i := by positivity
    rw [cmul_some (by rw [isINT_iff]; omega)]
    simp only [Option.bind_eq_bind, Option.bind_some]
    rw [if_pos (by omega)]
    rw [cmod_some (by omega) hnI (by omega)]
    simp only [Option.bind_some]
    rw [if_neg (by
      rw [dvd_iff_emod]
      intro hd
      rcases (Nat.dvd_prime hpr).1 hd with h | h <;> omega)]
    rw [cadd_some (by rw [isINT_iff]; omega)]
    simp only [Option.bind_some]
    have : ((i : Int) + 2) = ((i + 2 : ℕ) : Int) := by push_cast; rfl
    rw [this]
    exact ih (i + 2) (by omega) (by omega) (by omega) (by omega)

theorem firstDivisor_none {n : ℕ} (hpr : n.Prime) (hn : trialBound ≤ (n : Int)) (hnI : (n : Int) ≤ INT_MAX) :
    firstDivisor n = none := by
  have hn' := hn
  unfold trialBound at hn'
  have hodd : n % 2 = 1 := by
    rcases hpr.eq_two_or_odd with h | h
    · omega
    · exact h
  unfold firstDivisor
  rw [if_neg (by omega), cmod_some (by omega) hnI (by omega)]
  simp only [Option.bind_eq_bind, Option.bind_some]
  rw [if_neg (by omega)]
  exact firstDivisorLoop_none hpr hodd hn hnI 3037000498 3 (by omega) (by omega) rfl (by omega)

theorem isPrime_some {n : Int} (hn : n < trialBound) : isPrime n = some (decide (n.toNat.Prime)) := by
  unfold isPrime
  split
  · rename_i h
    obtain ⟨m, rfl⟩ : ∃ m : ℕ, n = m := ⟨n.toNat, by omega⟩
    rw [firstDivisor_some (by omega) hn]
    simp only [Option.bind_eq_bind, Option.bind_some, Int.toNat_natCast]
    change some _ = some _
    congr 1
    rw [Bool.eq_iff_iff]
    simp only [beq_iff_eq, decide_eq_true_eq]
    rw [Nat.prime_def_minFac]
    constructor
    · intro h'; exact ⟨by omega, by exact_mod_cast h'⟩
    · intro h'; exact_mod_cast h'.2
  · rename_i h
    have : ¬ n.toNat.Prime := fun hp => by have := hp.two_le; omega
    simp [this]

theorem nextPrime_some {p : ℕ} (hp : p.Prime) (hb : (p : Int) < trialBound) (k : ℕ) :
    ∀ n : Int, -(2:Int)^62 ≤ n → n ≤ p → (∀ q : ℕ, q.Prime → n ≤ q → p ≤ q) → (p - n).toNat ≤ k → nextPrime n = some p := by
  have hb' := hb
  unfold trialBound at hb'
  induction k with
  | zero =>
    intro n hlow hnp hmin hk
    have : n = p := by omega
    subst this
    rw [nextPrime, isPrime_some hb]
    simp [hp]
  | succ k ih =>
    intro n hlow hnp hmin hk
    rw [nextPrime, isPrime_some (by omega)]
    simp only [Option.bind_eq_bind, Option.bind_some]
    split
    · rename_i h
      have hpr : n.toNat.Prime := by simpa using h
      have := hpr.two_le
      have := hmin _ hpr (by omega)
      have : n = p := by omega
      subst this; rfl
    · rename_i h
      have hnpr : ¬ n.toNat.Prime := by simpa using h
      have hne : n ≠ p := by rintro rfl; simp [hp] at hnpr
      rw [cadd_some (by rw [isINT_iff]; norm_num at hlow; omega)]
      simp only [Option.bind_some]
      refine ih (n + 1) (by omega) (by omega) ?_ (by omega)
      intro q hq hle
      exact hmin q hq (by omega)

/-! ### isqrt -/

theorem isqrtLoop_some {n : ℕ} (hn : 1 ≤ n) (hnI : (n : Int) < INT_MAX) (k : ℕ) :
    ∀ g i : ℕ, 1 ≤ g → g ≤ k → (g : Int) + i ≤ INT_MAX → i = n / g → i ≤ g → n < (g + 1) * (g + 1) →
     isqrtLoop n g i = some (Nat.sqrt n : Int) := by
  unfold INT_MAX at hnI
  induction k with
  | zero => intro g i h1 h2; omega
  | succ k ih =>
    intro g i hg hgk hI hi hle hlt
    unfold INT_MAX at hI
    rw [isqrtLoop, cadd_some (by rw [isINT_iff]; omega)]
    simp only [Option.bind_eq_bind, Option.bind_some]
    rw [cdiv_some (by omega) (by unfold INT_MAX; omega) (by omega)]
    simp only [Option.bind_some]
    have e1 : ((g : Int) + i) / 2 = (((g + i) / 2 : ℕ) : Int) := by omega
    -- i ≥ 1 unless g = n = 1... in any case (g+i)/2 ≥ 1
    have hgn : g ≤ n ∨ n < g := by omega
    set g' := (g + i) / 2 with hg'
    have hsq : n < (g' + 1) * (g' + 1) := by
      have h1 : n < g * (i + 1) := by rw [hi]; exact Nat.lt_mul_div_succ n (by omega)
      have h2 : g + i + 1 ≤ 2 * (g' + 1) := by omega
      have h3 : 4 * (g * (i + 1)) ≤ (g + i + 1) * (g + i + 1) := by
        have : (4 : ℤ) * (g * (i + 1)) ≤ (g + i + 1) * (g + i + 1) := by nlinarith [sq_nonneg ((g : ℤ) - i - 1)]
        exact_mod_cast this
      have h4 : (g + i + 1) * (g + i + 1) ≤ (2 * (g' + 1)) * (2 * (g' + 1)) := Nat.mul_le_mul h2 h2
      nlinarith
    have hg1 : 1 ≤ g' := by
      by_contra h
      have : g' = 0 := by omega
      rw [this] at hsq; omega
    rw [e1, cdiv_some (by omega) (by unfold INT_MAX; omega) (by omega)]
    simp only [Option.bind_some]
    have e2 : (n : Int) / (g' : ℕ) = ((n / g' : ℕ) : Int) := by push_cast; rfl
    rw [e2]
    split
    · rename_i hgt
      have hgt' : n / g' < g' := by exact_mod_cast hgt
      have hlt' : g' < g := by
        by_contra hcon
        have : i = g := by omega
        have : g' = g := by omega
        rw [this, ← hi] at hgt'; omega
      refine ih g' (n / g') hg1 (by omega) ?_ rfl (by omega) hsq
      unfold INT_MAX
      omega
    · rename_i hgt
      have hgt' : g' ≤ n / g' := by have := not_lt.1 hgt; exact_mod_cast this
      have : g' * g' ≤ n := (Nat.le_div_iff_mul_le (by omega)).1 hgt'
      rw [Nat.eq_sqrt.2 ⟨this, hsq⟩]
      rfl

theorem isqrt_some {n : ℕ} (hnI : (n : Int) < INT_MAX) : isqrt n = some (Nat.sqrt n : Int) := by
  unfold isqrt
  split
  · rename_i h
    have : n = 0 := by omega
    subst this; simp
  · rename_i h
    have := isqrtLoop_some (n := n) (by omega) hnI n n 1 (by omega) (le_refl _) (by push_cast; omega)
      (by rw [Nat.div_self (by omega)]) (by omega) (by nlinarith)
    simpa using this

/-! ### modulo -/

theorem modulo_some {a n : Int} (ha : IsINT a) (hn0 : 0 < n) (hn : n ≤ INT_MAX) : modulo a n = some (a % n) := by
  rw [isINT_iff] at ha
  have hnb : n ≤ 9223372036854775807 := by unfold INT_MAX at hn; omega
  unfold modulo
  split
  · exact cmod_some (by omega) (by unfold INT_MAX; omega) hn0
  · rw [cadd_some (by rw [isINT_iff]; omega)]
    simp only [Option.bind_eq_bind, Option.bind_some]
    rw [csub_some (by rw [isINT_iff]; omega)]
    simp only [Option.bind_some]
    rw [cmod_some (by omega) (by unfold INT_MAX; omega) hn0]
    simp only [Option.bind_some]
    rw [csub_some (by rw [isINT_iff]; omega)]
    simp only [Option.bind_some]
    have h1 := Int.emod_nonneg (0 - (a + 1)) (b := n) (by omega)
    have h2 := Int.emod_lt_of_pos (0 - (a + 1)) hn0
    rw [csub_some (by rw [isINT_iff]; omega)]
    congr 1
    rw [eq_comm]
    have hd : (0 - (a + 1)) = n * ((0 - (a + 1)) / n) + (0 - (a + 1)) % n := (Int.mul_ediv_add_emod _ _).symm
    set q := (0 - (a + 1)) / n
    set r := (0 - (a + 1)) % n
    have ha' : a = (n - 1 - r) + n * (-q - 1) := by linarith
    rw [ha', Int.add_mul_emod_self_left]
    exact Int.emod_eq_of_lt (by omega) (by omega)

end FFTW.Primes
