import Verif.Model.Primes
import Mathlib.Tactic.Ring
import Mathlib.Tactic.Linarith
import Mathlib.Tactic.NormNum

namespace FFTW.Primes

theorem isINT_iff (x : Int) : IsINT x ↔ -9223372036854775808 ≤ x ∧ x ≤ 9223372036854775807 := by
  unfold IsINT INT_MIN INT_MAX; norm_num

theorem cadd_some {x y : Int} (h : IsINT (x + y)) : cadd x y = some (x + y) := chk_of h
theorem csub_some {x y : Int} (h : IsINT (x - y)) : csub x y = some (x - y) := chk_of h
theorem cmul_some {x y : Int} (h : IsINT (x * y)) : cmul x y = some (x * y) := chk_of h
theorem tdiv_eq {x y : Int} (hx : 0 ≤ x) : x.tdiv y = x / y := Int.tdiv_eq_ediv_of_nonneg hx
theorem tmod_eq {x y : Int} (hx : 0 ≤ x) : x.tmod y = x % y := Int.tmod_eq_emod_of_nonneg hx

theorem ediv_bounds {x y : Int} (hx : 0 ≤ x) (hy : 0 < y) : 0 ≤ x / y ∧ x / y ≤ x :=
  ⟨Int.ediv_nonneg hx hy.le, Int.ediv_le_self _ hx⟩

theorem cdiv_some {x y : Int} (hx : 0 ≤ x) (hx' : x ≤ INT_MAX) (hy : 0 < y) : cdiv x y = some (x / y) := by
  have := ediv_bounds hx hy
  unfold cdiv
  rw [if_neg (by omega), tdiv_eq hx, chk_of]
  unfold INT_MAX at hx'
  rw [isINT_iff]; constructor <;> omega

theorem cmod_some {x y : Int} (hx : 0 ≤ x) (hx' : x ≤ INT_MAX) (hy : 0 < y) : cmod x y = some (x % y) := by
  have := ediv_bounds hx hy
  unfold cmod
  rw [if_neg (by omega), tdiv_eq hx, if_pos, tmod_eq hx]
  unfold INT_MAX at hx'
  rw [isINT_iff]; constructor <;> omega

theorem cshr1_some {x : Int} (hx : 0 ≤ x) : cshr1 x = some (x / 2) := if_pos hx

theorem addMod_some {x y p : Int} (hp : p ≤ INT_MAX) (hx : 0 ≤ x) (hxp : x < p) (hy : 0 ≤ y) (hyp : y < p) :
    addMod x y p = some ((x + y) % p) := by
  unfold INT_MAX at hp
  unfold addMod
  rw [csub_some (by rw [isINT_iff]; omega)]
  simp only [Option.bind_eq_bind, Option.bind_some]
  split
  · rw [csub_some (by rw [isINT_iff]; omega)]
    simp only [Option.bind_some]
    rw [cadd_some (by rw [isINT_iff]; omega)]
    congr 1
    rw [← Int.emod_eq_of_lt (a := x + (y - p)) (b := p) (by omega) (by omega),
      show x + (y - p) = x + y - p by ring, Int.sub_emod_right]
  · rw [cadd_some (by rw [isINT_iff]; omega)]
    congr 1
    exact (Int.emod_eq_of_lt (by omega) (by omega)).symm

theorem emod_two_cases (y : Int) : y % 2 = 0 ∨ y % 2 = 1 := Int.emod_two_eq y

theorem safeMulmodLoop_some (p : Int) (hp0 : p ≤ INT_MAX) (n : ℕ) : ∀ (r x y : Int), y.toNat ≤ n →
    0 ≤ r → r < p → 0 ≤ x → x < p → 0 ≤ y →
    safeMulmodLoop r x y p = some ((r + x * y) % p) := by
  induction n with
  | zero =>
    intro r x y hn hr hrp hx hxp hy
    have : y = 0 := by omega
    subst this
    rw [safeMulmodLoop]
    simp [Int.emod_eq_of_lt hr hrp]
  | succ n ih =>
    intro r x y hn hr hrp hx hxp hy
    by_cases hy0 : y = 0
    · subst hy0
      rw [safeMulmodLoop]
      simp [Int.emod_eq_of_lt hr hrp]
    · have hpINT : p ≤ 9223372036854775807 := by unfold INT_MAX at hp0; omega
      rw [safeMulmodLoop]
      simp only [hy0, if_false]
      have hb := emod_two_cases y
      have hxb : 0 ≤ x * (y % 2) ∧ x * (y % 2) < p := by
        rcases hb with h | h <;> rw [h] <;> constructor <;> omega
      unfold cand1
      rw [cmul_some (by rw [isINT_iff]; omega)]
      simp only [Option.bind_eq_bind, Option.bind_some]
      rw [addMod_some hp0 hr hrp hxb.1 hxb.2]
      simp only [Option.bind_some]
      rw [cshr1_some hy]
      simp only [Option.bind_some]
      rw [addMod_some hp0 hx hxp hx hxp]
      simp only [Option.bind_some]
      have hppos : 0 < p := by omega
      rw [ih _ _ _ (by omega) (Int.emod_nonneg _ (by omega)) (Int.emod_lt_of_pos _ hppos)
        (Int.emod_nonneg _ (by omega)) (Int.emod_lt_of_pos _ hppos) (by omega)]
      congr 1
      have hy2 : y = 2 * (y / 2) + y % 2 := by omega
      have e1 : ((r + x * (y % 2)) % p + (x + x) % p * (y / 2)) % p
          = ((r + x * (y % 2)) + (x + x) * (y / 2)) % p := by
        rw [Int.add_emod, Int.emod_emod_of_dvd _ (dvd_refl p), Int.mul_emod, Int.emod_emod_of_dvd _ (dvd_refl p),
          ← Int.mul_emod, ← Int.add_emod]
      rw [e1]
      congr 1
      conv_rhs => rw [hy2]
      ring

theorem safeMulmod_some {x y p : Int} (hp : p ≤ INT_MAX) (hx : 0 ≤ x) (hxp : x < p) (hy : 0 ≤ y) (hyp : y < p) :
    safeMulmod x y p = some ((x * y) % p) := by
  have key : ∀ a b : Int, ¬ b > a → 0 ≤ a → a < p → 0 ≤ b → safeMulmod a b p = some ((a * b) % p) := by
    intro a b hab ha hap hb
    rw [safeMulmod, if_neg hab, safeMulmodLoop_some p hp b.toNat 0 a b (le_refl _) (le_refl _) (by omega) ha hap hb]
    simp
  by_cases h : y > x
  · rw [safeMulmod, if_pos h, key y x (by omega) hy hyp hx, mul_comm]
  · exact key x y h hx hxp hy

theorem MULMOD_some {x y p : Int} (hp : p ≤ INT_MAX) (hx : 0 ≤ x) (hxp : x < p) (hy : 0 ≤ y) (hyp : y < p) :
    MULMOD x y p = some ((x * y) % p) := by
  have hpINT : p ≤ 9223372036854775807 := by unfold INT_MAX at hp; omega
  unfold MULMOD
  rw [csub_some (by rw [isINT_iff]; omega)]
  simp only [Option.bind_eq_bind, Option.bind_some]
  split
  · have : x * y ≤ 92681 * 92681 := by nlinarith
    have h0 : 0 ≤ x * y := by positivity
    rw [cmul_some (by rw [isINT_iff]; omega)]
    simp only [Option.bind_some]
    rw [cmod_some h0 (by unfold INT_MAX; omega) (by omega)]
  · exact safeMulmod_some hp hx hxp hy hyp

theorem powerMod_some {n p : Int} (hp : p ≤ INT_MAX) (hp2 : 2 ≤ p) (hn : 0 ≤ n) (hnp : n < p) (k : ℕ) :
    ∀ m : ℕ, m ≤ k → (m : Int) ≤ INT_MAX → powerMod n m p = some (n ^ m % p) := by
  induction k with
  | zero =>
    intro m hm _
    have : m = 0 := by omega
    subst this
    rw [powerMod]
    simp [Int.emod_eq_of_lt (a := 1) (b := p) (by omega) (by omega)]
  | succ k ih =>
    intro m hm hmI
    rw [powerMod]
    by_cases h0 : m = 0
    · subst h0; simp [Int.emod_eq_of_lt (a := 1) (b := p) (by omega) (by omega)]
    · have h0' : ¬ ((m : Int) = 0) := by omega
      simp only [h0', if_false]
      rw [cmod_some (by omega) hmI (by omega)]
      simp only [Option.bind_eq_bind, Option.bind_some]
      split
      · rename_i he
        rw [cdiv_some (by omega) hmI (by omega)]
        simp only [Option.bind_some]
        have : ((m : Int) / 2) = ((m / 2 : ℕ) : Int) := by omega
        rw [this, ih (m / 2) (by omega) (by omega)]
        simp only [Option.bind_some]
        rw [MULMOD_some hp (Int.emod_nonneg _ (by omega)) (Int.emod_lt_of_pos _ (by omega))
          (Int.emod_nonneg _ (by omega)) (Int.emod_lt_of_pos _ (by omega)), ← Int.mul_emod, ← pow_add]
        congr 3
        omega
      · rename_i he
        rw [csub_some (by rw [isINT_iff]; unfold INT_MAX at hmI; omega)]
        simp only [Option.bind_some]
        have : ((m : Int) - 1) = ((m - 1 : ℕ) : Int) := by omega
        rw [this, ih (m - 1) (by omega) (by omega)]
        simp only [Option.bind_some]
        rw [MULMOD_some hp hn hnp
          (Int.emod_nonneg _ (by omega)) (Int.emod_lt_of_pos _ (by omega)), Int.mul_emod, Int.emod_emod_of_dvd _ (dvd_refl p), ← Int.mul_emod]
        congr 2
        rw [← pow_succ']
        congr 1
        omega

end FFTW.Primes
