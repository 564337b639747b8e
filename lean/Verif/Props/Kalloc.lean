import Verif.Model.Kalloc
import Mathlib.Tactic.Ring
import Mathlib.Tactic.Linarith
import Mathlib.Data.Nat.Bitwise

/-!
# C41: `fftw_malloc` alignment (`--with-our-malloc`)
-/

namespace FFTW.Props
open FFTW.Kalloc

private theorem load_store (m : Mem) (a v : Nat) (hv : v < 2 ^ 64) : load64 (store64 m a v) a = v := by
  have h : ∀ i, i < 8 → store64 m a v (a + i) = v / 256 ^ i % 256 := by
    intro i hi
    unfold store64
    rw [if_pos (by omega), Nat.add_sub_cancel_left]
  unfold load64
  rw [h 1 (by omega), h 2 (by omega), h 3 (by omega), h 4 (by omega), h 5 (by omega), h 6 (by omega), h 7 (by omega)]
  have h0 := h 0 (by omega)
  simp only [Nat.add_zero] at h0
  rw [h0]
  norm_num at hv ⊢
  omega

private theorem mask (k x : Nat) (hk : k ≤ 64) (hx : x < 2 ^ 64) : x &&& cpl (2 ^ k - 1) = x / 2 ^ k * 2 ^ k := by
  apply Nat.eq_of_testBit_eq
  intro i
  have hc : cpl (2 ^ k - 1) = 2 ^ 64 - 2 ^ k := by
    have := Nat.pow_le_pow_right (show 0 < 2 by norm_num) hk
    have := Nat.two_pow_pos k
    unfold cpl; omega
  have hc2 : 2 ^ 64 - 2 ^ k = (2 ^ (64 - k) - 1) * 2 ^ k := by
    rw [Nat.sub_mul, ← Nat.pow_add, one_mul]; congr 2; omega
  rw [Nat.testBit_and, hc, hc2, Nat.testBit_mul_two_pow, Nat.testBit_mul_two_pow, Nat.testBit_two_pow_sub_one, Nat.testBit_div_two_pow]
  by_cases h : k ≤ i
  · simp only [h, decide_true, Bool.true_and]
    rw [show i - k + k = i by omega]
    by_cases h2 : i < 64
    · simp only [show i - k < 64 - k by omega, decide_true, Bool.and_true]
    · rw [Nat.testBit_lt_two_pow (lt_of_lt_of_le hx (Nat.pow_le_pow_right (by norm_num) (by omega)))]; simp
  · simp [h]

/-- C41: let `malloc(n + A)` return a pointer-aligned block `[p0, p0 + n + A)` inside the address space, `A = 2^k ≥ 8`.
Then `our_malloc` succeeds without writing outside that block and returns an `A`-aligned `p` such that `[p, p+n)` lies in
the block and the bytes written lie before `p`; and after the user has written anything into `[p, p+n)`,
`our_free` frees exactly `p0`. -/
theorem C41_our_malloc (k p0 n : Nat) (m : Mem) (hk : 3 ≤ k) (hk2 : k ≤ 63) (h0 : p0 ≠ 0) (hal : p0 % 8 = 0) (hfit : p0 + (n + 2 ^ k) < 2 ^ 64) :
    ∃ p m', ourMalloc (2 ^ k) p0 n m = some (p, m') ∧ p % 2 ^ k = 0 ∧ p0 + 8 ≤ p ∧ p + n ≤ p0 + (n + 2 ^ k) ∧
      (∀ x, (x < p0 ∨ p ≤ x) → m' x = m x) ∧
      (∀ user : Mem, (∀ x, (x < p ∨ p + n ≤ x) → user x = m' x) → ourFree user p = some p0) := by
  have hA : 8 ≤ 2 ^ k := by
    have := Nat.pow_le_pow_right (show 0 < 2 by norm_num) hk
    simpa using this
  have h8 : 8 ∣ 2 ^ k := by
    have : (2 : ℕ) ^ 3 ∣ 2 ^ k := pow_dvd_pow 2 hk
    simpa using this
  have hp : ((p0 + 2 ^ k) % 2 ^ 64) &&& cpl (2 ^ k - 1) = (p0 + 2 ^ k) / 2 ^ k * 2 ^ k := by
    rw [Nat.mod_eq_of_lt (by omega)]
    exact mask k _ (by omega) (by omega)
  set q := (p0 + 2 ^ k) / 2 ^ k with hq
  have hdm := Nat.div_add_mod (p0 + 2 ^ k) (2 ^ k)
  rw [← hq] at hdm
  have hml := Nat.mod_lt (p0 + 2 ^ k) (show 0 < 2 ^ k by omega)
  have hc : q * 2 ^ k = 2 ^ k * q := Nat.mul_comm _ _
  have hq8 : 8 ∣ q * 2 ^ k := Dvd.dvd.mul_left h8 _
  have hge : p0 + 8 ≤ q * 2 ^ k := by
    have h1 : p0 < q * 2 ^ k := by omega
    obtain ⟨c, hc⟩ := hq8
    omega
  have hle : q * 2 ^ k ≤ p0 + 2 ^ k := by omega
  refine ⟨q * 2 ^ k, store64 m (q * 2 ^ k - 8) p0, ?_, Nat.mul_mod_left _ _, hge, by omega, ?_, ?_⟩
  · unfold ourMalloc
    rw [if_neg h0]
    simp only [hp]
    rw [if_pos ⟨by omega, by omega, by omega⟩]
  · intro x hx
    unfold store64
    rw [if_neg (by omega)]
  · intro user hu
    unfold ourFree
    rw [if_pos (by omega)]
    have : load64 user (q * 2 ^ k - 8) = load64 (store64 m (q * 2 ^ k - 8) p0) (q * 2 ^ k - 8) := by
      unfold load64
      rw [hu _ (by omega), hu _ (by omega), hu _ (by omega), hu _ (by omega), hu _ (by omega), hu _ (by omega), hu _ (by omega), hu _ (by omega)]
    rw [this, load_store _ _ _ (by omega)]

/-- failure of `malloc` is reported as a null pointer -/
theorem C41_malloc_fails (A n : Nat) (m : Mem) : ourMalloc A 0 n m = some (0, m) := rfl

-- 16-byte alignment, raw block at 0x1008
example : ∃ m', ourMalloc 16 0x1008 100 (fun _ => 0) = some (0x1010, m') := ⟨_, by
  unfold ourMalloc; rw [if_neg (by norm_num)]
  simp only [show ((4104 + 16) % 2 ^ 64) &&& cpl (16 - 1) = 4112 by decide]
  rw [if_pos (by norm_num)]⟩

end FFTW.Props
