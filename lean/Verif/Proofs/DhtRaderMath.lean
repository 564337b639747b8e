import Verif.Proofs.RaderMath
import Verif.Proofs.RdftDht
import Verif.Proofs.ReodftMath3

/-! # The algebra of rdft/dht-rader.c -/

namespace FFTW.RdftS
open Tensor Spec Finset DftS Reodft
open Real (cos sin)

local notation "π" => Real.pi

/-- a real sequence transformed, in complex form -/
theorem hc_complex {N : ℕ} (hN : 0 < N) {b y : ℕ → ℝ} (hy : ∀ k < N, y k = ∑ j ∈ range N, rK .R2HC00 N j k * b j) {q : ℕ} (hq : q ≤ N) :
    (⟨hcRe N y q, hcIm N y q⟩ : ℂ) = ∑ i ∈ range N, ω N ^ (i * q) * (b i : ℂ) := by
  obtain ⟨h1, h2⟩ := hc_spec hN hy hq
  have e : ∀ i : ℕ, 2 * π * ((i * q : ℕ) : ℝ) / N = 2 * π * i * q / N := fun i => by push_cast; ring
  apply Complex.ext
  · rw [Complex.re_sum, h1]
    dsimp only
    exact sum_congr rfl fun i _ => by rw [ω_pow_cos, e]; simp [-Complex.ofReal_cos, -Complex.ofReal_sin]; ring
  · rw [Complex.im_sum, h2]
    dsimp only
    exact sum_congr rfl fun i _ => by rw [ω_pow_cos, e]; simp [-Complex.ofReal_cos, -Complex.ofReal_sin]; ring

/-- the product of the two spectra as the code stores it -/
noncomputable def dhtProd (N : ℕ) (Ω A : ℕ → ℝ) (r0 : ℝ) (k : ℕ) : ℝ :=
  (hcRe N Ω k * hcRe N A k - hcIm N Ω k * hcIm N A k) + (hcRe N Ω k * hcIm N A k + hcIm N Ω k * hcRe N A k) + if k = 0 then r0 else 0

/-- a cyclic convolution computed with three r2hc transforms -/
theorem dht_conv {N : ℕ} (hN : 0 < N) {a w A Ω Z : ℕ → ℝ} {r0 : ℝ} (hA : ∀ k < N, A k = ∑ j ∈ range N, rK .R2HC00 N j k * a j)
    (hΩ : ∀ k < N, Ω k = ∑ j ∈ range N, rK .R2HC00 N j k * (w j / N)) (hZ : ∀ k < N, Z k = ∑ j ∈ range N, rK .R2HC00 N j k * dhtProd N Ω A r0 j) {j : ℕ} (hj : j < N) :
    hcRe N Z j + hcIm N Z j = r0 + ∑ k ∈ range N, a k * w ((j + N - k) % N) := by
  set P : ℕ → ℂ := fun q => (∑ i ∈ range N, ω N ^ (i * q) * ((w i : ℂ) / N)) * ∑ k ∈ range N, ω N ^ (k * q) * (a k : ℂ) with hP
  have hPq : ∀ q < N, P q = ⟨hcRe N Ω q, hcIm N Ω q⟩ * ⟨hcRe N A q, hcIm N A q⟩ := by
    intro q hq
    rw [hc_complex hN hA hq.le, hc_complex hN hΩ hq.le, hP]
    push_cast; rfl
  have c1 := conv_ω hN.ne' (fun i => (w i : ℂ)) (fun i => (a i : ℂ)) hj
  have c2 := conv_ω hN.ne' (fun i => (w i : ℂ)) (fun i => (a i : ℂ)) (Nat.mod_lt (N - j) hN)
  have hω : ∀ q, (starRingEnd ℂ) (ω N ^ (q * ((N - j) % N))) = ω N ^ (q * j) := by
    intro q
    have h := ω_pow_conj N (q * j) (k := q * ((N - j) % N)) hN.ne' (by
      rcases Nat.eq_zero_or_pos j with rfl | h0
      · simp
      · rw [Nat.mod_eq_of_lt (show N - j < N by omega), ← mul_add, show j + (N - j) = N by omega]; simp)
    rw [h, Complex.conj_conj]
  simp only [hω] at c2
  obtain ⟨h1, h2⟩ := hc_spec hN hZ hj.le
  rw [h1, h2, ← sum_add_distrib]
  have key : ∀ q < N, dhtProd N Ω A r0 q * cos (2 * π * q * j / N) + dhtProd N Ω A r0 q * - sin (2 * π * q * j / N) =
      ((starRingEnd ℂ) (ω N ^ (q * j)) * P q).re + (ω N ^ (q * j) * P q).im + if q = 0 then r0 else 0 := by
    intro q hq
    have e : 2 * π * ((q * j : ℕ) : ℝ) / N = 2 * π * q * j / N := by push_cast; ring
    rw [hPq q hq, ω_pow_cos, e, dhtProd]
    by_cases h0 : q = 0
    · subst h0
      simp [-Complex.ofReal_cos, -Complex.ofReal_sin]
    · rw [if_neg h0]
      simp [-Complex.ofReal_cos, -Complex.ofReal_sin]; ring
  rw [sum_congr rfl fun q hq => key q (mem_range.1 hq), sum_add_distrib, sum_add_distrib, ← Complex.re_sum, ← Complex.im_sum, c1, c2,
    sum_ite_eq' (range N) 0 (fun _ => r0), if_pos (mem_range.2 hN)]
  rw [Complex.re_sum, Complex.im_sum]
  simp only [← Complex.ofReal_mul, Complex.ofReal_re, Complex.ofReal_im, sum_const_zero]
  ring

/-- the table before its transformation -/
noncomputable def dhtW (n h npad i : ℕ) : ℝ :=
  if i < n - 1 then cos (2 * π * ((h ^ i % n : ℕ) : ℝ) / n) + sin (2 * π * ((h ^ i % n : ℕ) : ℝ) / n)
  else if npad < i + (n - 1) then cos (2 * π * ((h ^ (i + (n - 1) - npad) % n : ℕ) : ℝ) / n) + sin (2 * π * ((h ^ (i + (n - 1) - npad) % n : ℕ) : ℝ) / n)
  else 0

theorem cas_mod {n a b : ℕ} (hn : 0 < n) (h : a % n = b % n) : cos (2 * π * a / n) + sin (2 * π * a / n) = cos (2 * π * b / n) + sin (2 * π * b / n) := by
  obtain ⟨a1, a2⟩ := cos_mod n a hn
  obtain ⟨b1, b2⟩ := cos_mod n b hn
  rw [← a1, ← a2, ← b1, ← b2, h]

/-- the heart of `apply`, rdft/dht-rader.c -/
theorem dht_rader_math {n : ℕ} [Fact n.Prime] {g h npad : ℕ} (hg0 : 0 < g) (hgn : g < n) (ho : orderOf (g : ZMod n) = n - 1) (hgh : (g : ZMod n) * h = 1)
    (hpad : npad = n - 1 ∨ 2 * (n - 1) ≤ npad) (x : ℕ → ℝ) {j : ℕ} (hj : j < n - 1) :
    x 0 + ∑ k ∈ range npad, (if k < n - 1 then x (g ^ k % n) else 0) * dhtW n h npad ((j + npad - k) % npad) = ∑ m ∈ range n, rK .DHT n m (h ^ j % n) * x m := by
  have hp : n.Prime := Fact.out
  have h2 := hp.two_le
  have hle : n - 1 ≤ npad := by omega
  rw [range_eq_Ico (a := n), sum_eq_sum_Ico_succ_bot (a := 0) (b := n) (by omega), Genfft.sum_gen hg0 hgn ho]
  have hz : rK .DHT n 0 (h ^ j % n) = 1 := by rw [dht_comm, dht_zero]
  rw [hz, one_mul]
  congr 1
  have hsub : ∑ k ∈ range npad, (if k < n - 1 then x (g ^ k % n) else 0) * dhtW n h npad ((j + npad - k) % npad) =
      ∑ k ∈ range (n - 1), (if k < n - 1 then x (g ^ k % n) else 0) * dhtW n h npad ((j + npad - k) % npad) := by
    symm
    refine sum_subset (range_mono hle) fun k _ hk => ?_
    rw [if_neg (by simpa using hk), zero_mul]
  rw [hsub]
  refine sum_congr rfl fun k hk => ?_
  have hk := mem_range.1 hk
  rw [if_pos hk, mul_comm]
  congr 1
  have ho' := order_inv ho hgh
  have e2 : (g : ZMod n) ^ k * (h : ZMod n) ^ k = 1 := by rw [← mul_pow, hgh, one_pow]
  have main : ∀ s, (h : ZMod n) ^ (s + k) = (h : ZMod n) ^ j → cos (2 * π * ((h ^ s % n : ℕ) : ℝ) / n) + sin (2 * π * ((h ^ s % n : ℕ) : ℝ) / n) = rK .DHT n (g ^ k % n) (h ^ j % n) := by
    intro s hs
    rw [dht_def, show 2 * π * ((g ^ k % n : ℕ) : ℝ) * ((h ^ j % n : ℕ) : ℝ) / n = 2 * π * (((g ^ k % n) * (h ^ j % n) : ℕ) : ℝ) / n by push_cast; ring]
    apply cas_mod (by omega)
    rw [← ZMod.natCast_eq_natCast_iff']
    push_cast
    rw [ZMod.natCast_mod, ZMod.natCast_mod, ZMod.natCast_mod]
    push_cast
    rw [← hs, pow_add]
    calc (h : ZMod n) ^ s = (h : ZMod n) ^ s * ((g : ZMod n) ^ k * (h : ZMod n) ^ k) := by rw [e2, mul_one]
      _ = _ := by ring
  have hper : (h : ZMod n) ^ (j + (n - 1)) = (h : ZMod n) ^ j := by rw [pow_add, ← ho', pow_orderOf_eq_one, mul_one]
  by_cases hkj : k ≤ j
  · have : (j + npad - k) % npad = j - k := by
      rw [show j + npad - k = (j - k) + npad by omega, Nat.add_mod_right, Nat.mod_eq_of_lt (by omega)]
    rw [this, dhtW, if_pos (by omega)]
    exact main _ (by rw [show j - k + k = j by omega])
  · have : (j + npad - k) % npad = j + npad - k := Nat.mod_eq_of_lt (by omega)
    rw [this, dhtW]
    split_ifs with h1 h3
    · obtain rfl : npad = n - 1 := by omega
      exact main _ (by rw [show j + (n - 1) - k + k = j + (n - 1) by omega, hper])
    · exact main _ (by rw [show j + npad - k + (n - 1) - npad + k = j + (n - 1) by omega, hper])
    · omega

end FFTW.RdftS
