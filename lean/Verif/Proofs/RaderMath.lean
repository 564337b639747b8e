import Verif.Proofs.GenfftCodelets
import Verif.Proofs.Genfft2
import Verif.Proofs.DftMath
import Verif.Proofs.Primes4

/-! # The algebra of Rader's algorithm -/

namespace FFTW.Primes

theorem firstDivisorLoop_le (i n r : Int) (h : firstDivisorLoop i n = some r) : 3 ≤ i → r = n → n ≤ INT_MAX := by
  refine firstDivisorLoop.partial_correctness n (fun i r => 3 ≤ i → r = n → n ≤ INT_MAX) ?_ i r h
  clear h i r
  intro f ih i r h
  simp only [Option.bind_eq_bind] at h
  obtain ⟨s, hs, h⟩ := Option.bind_eq_some_iff.1 h
  have hsI : s ≤ INT_MAX := by
    unfold cmul chk at hs
    split at hs
    · rename_i hI
      obtain rfl := Option.some.inj hs
      exact hI.2
    · simp at hs
  obtain rfl := cmul_eq hs
  split at h
  · rename_i hle
    obtain ⟨e, he, h⟩ := Option.bind_eq_some_iff.1 h
    split at h
    · obtain rfl := Option.some.inj h
      intro h3 hr
      rw [hr] at hle
      nlinarith
    · obtain ⟨i', hi', h⟩ := Option.bind_eq_some_iff.1 h
      obtain rfl := cadd_eq hi'
      intro h3
      exact ih _ _ h (by omega)
  · rename_i hle
    intro _ _
    omega

theorem isPrime_le {n : Int} (h : isPrime n = some true) : n ≤ INT_MAX := by
  unfold isPrime at h
  split at h
  rotate_left
  · simp at h
  rename_i hn
  simp only [Option.bind_eq_bind] at h
  obtain ⟨d, hd, h⟩ := Option.bind_eq_some_iff.1 h
  simp only [Option.pure_def, Option.some.injEq, beq_iff_eq] at h
  subst h
  unfold firstDivisor at hd
  rw [if_neg (by omega)] at hd
  simp only [Option.bind_eq_bind] at hd
  obtain ⟨e, he, hd⟩ := Option.bind_eq_some_iff.1 hd
  split at hd
  · obtain rfl := Option.some.inj hd
    unfold INT_MAX; omega
  · exact firstDivisorLoop_le _ _ _ hd (by omega) rfl

end FFTW.Primes

namespace FFTW.DftS
open Spec Finset

theorem ω_conj (n m : ℕ) : (starRingEnd ℂ) (ω n ^ m) = Genfft.cis n m := by
  rw [Genfft.ω_cis]
  have := Genfft.conj_cis n (-(m : ℤ))
  rw [neg_neg] at this
  exact this

theorem ω_norm (n m : ℕ) : (starRingEnd ℂ) (ω n ^ m) * ω n ^ m = 1 := by
  rw [ω_conj, Genfft.ω_cis, ← Genfft.cis_add, add_neg_cancel]
  unfold Genfft.cis; simp

/-- cyclic convolution with the signs of `FFT_SIGN = -1` -/
theorem conv_ω {N : ℕ} (hN : N ≠ 0) (a b : ℕ → ℂ) {j : ℕ} (hj : j < N) :
    ∑ q ∈ range N, (starRingEnd ℂ) (ω N ^ (q * j)) * ((∑ i ∈ range N, ω N ^ (i * q) * (a i / N)) * ∑ k ∈ range N, ω N ^ (k * q) * b k) =
      ∑ k ∈ range N, b k * a ((j + N - k) % N) := by
  have h := congrArg (starRingEnd ℂ) (Genfft.conv_dft hN (fun i => (starRingEnd ℂ) (b i)) (fun i => (starRingEnd ℂ) (a i)) hj)
  rw [map_sum] at h
  simp only [map_mul, Complex.conj_conj] at h
  rw [← h]
  unfold Genfft.dftSum
  rw [map_sum]
  refine sum_congr rfl fun q _ => ?_
  have c1 : ∀ m : ℕ, (starRingEnd ℂ) (Genfft.cis N (1 * (m : ℤ) * q)) = ω N ^ (m * q) := by
    intro m
    rw [Genfft.ω_cis]
    have := Genfft.conj_cis N (1 * (m : ℤ) * q)
    rw [show -(1 * (m : ℤ) * q) = -((m * q : ℕ) : ℤ) by push_cast; ring] at this
    exact this
  have c2 : (starRingEnd ℂ) (Genfft.cis N (-1 * (q : ℤ) * j)) = (starRingEnd ℂ) (ω N ^ (q * j)) := by
    rw [Genfft.ω_cis]; congr 2; push_cast; ring
  simp only [map_mul, map_sum, c1, c2, Complex.conj_conj]
  congr 1
  rw [mul_comm]
  congr 1
  rw [Genfft.inverseInt, map_div₀, map_one, Complex.conj_natCast, mul_sum]
  refine sum_congr rfl fun i _ => ?_
  ring

variable {n : ℕ}

theorem order_inv [Fact n.Prime] {g h : ℕ} (ho : orderOf (g : ZMod n) = n - 1) (hgh : (g : ZMod n) * h = 1) : orderOf (h : ZMod n) = n - 1 := by
  rw [← ho, orderOf_eq_orderOf_iff]
  intro k
  have e2 : (g : ZMod n) ^ k * (h : ZMod n) ^ k = 1 := by rw [← mul_pow, hgh, one_pow]
  constructor
  · intro h1; rwa [h1, mul_one] at e2
  · intro h1; rwa [h1, one_mul] at e2

/-- the heart of `apply`, dft/rader.c -/
theorem rader_math [Fact n.Prime] {g h : ℕ} (hg0 : 0 < g) (hgn : g < n) (ho : orderOf (g : ZMod n) = n - 1) (hgh : (g : ZMod n) * h = 1)
    (x : ℕ → ℂ) {j : ℕ} (hj : j < n - 1) :
    (starRingEnd ℂ) (∑ q ∈ range (n - 1), ω (n - 1) ^ (q * j) * (starRingEnd ℂ) ((∑ i ∈ range (n - 1), ω (n - 1) ^ (i * q) * (ω n ^ (h ^ i % n) / ((n - 1 : ℕ) : ℂ))) *
        (∑ k ∈ range (n - 1), ω (n - 1) ^ (k * q) * x (g ^ k % n)) + if q = 0 then x 0 else 0)) =
      ∑ m ∈ range n, ω n ^ (m * (h ^ j % n)) * x m := by
  have hp : n.Prime := Fact.out
  have h2 := hp.two_le
  have hn0 : n ≠ 0 := by omega
  rw [map_sum]
  simp only [map_mul, Complex.conj_conj, mul_add, sum_add_distrib]
  rw [conv_ω (by omega) (fun i => ω n ^ (h ^ i % n)) (fun k => x (g ^ k % n)) hj]
  have hz : ∑ q ∈ range (n - 1), (starRingEnd ℂ) (ω (n - 1) ^ (q * j)) * (if q = 0 then x 0 else 0) = x 0 := by
    rw [sum_eq_single 0 (by intro b _ hb; rw [if_neg hb, mul_zero]) (by intro h; exact absurd (mem_range.2 (by omega)) h)]
    simp
  rw [hz]
  rw [range_eq_Ico (a := n), sum_eq_sum_Ico_succ_bot (a := 0) (b := n) (by omega), Genfft.sum_gen hg0 hgn ho]
  simp only [zero_mul, pow_zero, one_mul, Nat.zero_add]
  rw [add_comm]
  congr 1
  refine sum_congr rfl fun k hk => ?_
  rw [mem_range] at hk
  rw [mul_comm]
  congr 1
  apply ω_pow_congr hn0
  rw [← ZMod.natCast_eq_natCast_iff']
  push_cast
  rw [ZMod.natCast_mod, ZMod.natCast_mod, ZMod.natCast_mod]
  push_cast
  rw [← order_inv ho hgh, pow_mod_orderOf, order_inv ho hgh]
  have e : (h : ZMod n) ^ (j + (n - 1)) = (h : ZMod n) ^ j := by
    rw [pow_add, ← order_inv ho hgh, pow_orderOf_eq_one, mul_one]
  have e2 : (g : ZMod n) ^ k * (h : ZMod n) ^ k = 1 := by rw [← mul_pow, hgh, one_pow]
  calc (h : ZMod n) ^ (j + (n - 1) - k) = ((g : ZMod n) ^ k * (h : ZMod n) ^ k) * (h : ZMod n) ^ (j + (n - 1) - k) := by rw [e2, one_mul]
    _ = (g : ZMod n) ^ k * (h : ZMod n) ^ (j + (n - 1)) := by rw [mul_assoc, ← pow_add]; congr 2; omega
    _ = _ := by rw [e]

end FFTW.DftS
