import Verif.Model.GenfftR2r
import Verif.Proofs.GenfftReal
import Verif.Proofs.CodeletsR
import Verif.Spec.CodeletR2r

namespace FFTW.Genfft
open Finset FFTW.Spec FFTW.Tensor FFTW.DftS FFTW.RdftS Real

theorem sum_fold (M : ℕ) (hM : 0 < M) (f : ℕ → ℝ) :
    ∑ j ∈ range (2 * M), f j = f 0 + f M + ∑ p ∈ range (M - 1), (f (p + 1) + f (2 * M - (p + 1))) := by
  obtain ⟨m, rfl⟩ : ∃ m, M = m + 1 := ⟨M - 1, by omega⟩
  rw [two_mul, sum_range_add, sum_range_succ', sum_range_succ' (fun j => f (m + 1 + j)), Nat.add_sub_cancel, sum_add_distrib]
  have : ∑ j ∈ range m, f (m + 1 + (j + 1)) = ∑ j ∈ range m, f (m + 1 + (m + 1) - (j + 1)) := by
    rw [← sum_range_reflect]
    refine sum_congr rfl fun j hj => ?_
    have := mem_range.1 hj
    congr 1; omega
  rw [this]; simp only [Nat.add_zero]; ring

theorem sum_skip (M : ℕ) (g : ℕ → ℝ) (h : g 0 = 0) : ∑ p ∈ range (M - 1), g (p + 1) = ∑ p ∈ range M, g p := by
  rcases M with _ | M
  · rfl
  · rw [sum_range_succ', h, add_zero, Nat.add_sub_cancel]

theorem sum_oddR (n : ℕ) (f : ℕ → ℝ) (h : ∀ j, j % 2 = 0 → f j = 0) : ∑ j ∈ range (2 * n), f j = ∑ j ∈ range n, f (2 * j + 1) := by
  induction n with
  | zero => simp
  | succ n ih => rw [show 2 * (n + 1) = 2 * n + 1 + 1 by ring, sum_range_succ, sum_range_succ, ih, sum_range_succ, h (2 * n) (by omega), add_zero]

/-- what coefficient `z` of frequency `p` and its mirror contribute to the real sequence of period `2 M` at `k` -/
noncomputable def T (M p k : ℕ) (z : ℂ) : ℝ := 2 * (cos (π * p * k / M) * z.re - sin (π * p * k / M) * z.im)

theorem T_zero (M p k : ℕ) : T M p k 0 = 0 := by simp [T]

theorem herm_dft {mp : Magic} (hmp : mp.Ok) {M k : ℕ} (hM : 0 < M) (hk : k < 2 * M) (a : Signal) :
    (dft mp 1 (2 * M) (hermitian (2 * M) a) k).re = (a 0).re + (-1) ^ k * (a M).re + ∑ p ∈ range (M - 1), T M (p + 1) k (a (p + 1)) := by
  have hM' : (M : ℝ) ≠ 0 := by exact_mod_cast hM.ne'
  rw [dft_ok mp hmp (2 * M) 1 (Or.inl rfl) _ k hk, dftSum, sum_re, sum_fold M hM]
  have ang : ∀ j : ℕ, 2 * π * ((1 * (j : ℤ) * k : ℤ) : ℝ) / (2 * M : ℕ) = π * j * k / M := by intro j; push_cast; field_simp
  simp only [cis_re, ang]
  congr 1
  · congr 1
    · simp [hermitian, array, hM, real]
    · rw [hermitian, array_eq (by omega), if_neg (by omega), if_neg (by omega), if_neg (by omega),
        show π * (M : ℝ) * k / M = k * π by field_simp, cos_nat_mul_pi, sin_nat_mul_pi]
      simp [real]
  · refine sum_congr rfl fun p hp => ?_
    have hp := mem_range.1 hp
    rw [hermitian, array_eq (by omega), array_eq (by omega), if_neg (by omega), if_pos (by omega), if_neg (by omega), if_neg (by omega), if_pos (by omega),
      show 2 * M - (2 * M - (p + 1)) = p + 1 by omega,
      show π * ((2 * M - (p + 1) : ℕ) : ℝ) * k / M = k * (2 * π) - π * ((p + 1 : ℕ) : ℝ) * k / M by
        rw [Nat.cast_sub (by omega)]; push_cast; field_simp,
      cos_nat_mul_two_pi_sub, sin_nat_mul_two_pi_sub]
    simp only [conj, T]
    ring

theorem trigI_eq {mp : Magic} (hmp : mp.Ok) {M k : ℕ} (hM : 0 < M) (hk : k < 2 * M) (y : Signal) :
    (trigI mp M y k).re = (y 0).re + (-1) ^ k * (y M).re + ∑ p ∈ range (M - 1), T M (p + 1) k (y (p + 1)) := herm_dft hmp hM hk y

theorem interleave_even (y : Signal) {i : ℕ} (h : i % 2 = 0) : interleaveZero y i = 0 := if_pos h
theorem interleave_odd (y : Signal) (j : ℕ) : interleaveZero y (2 * j + 1) = y j := by
  rw [interleaveZero, if_neg (by omega), show (2 * j + 1 - 1) / 2 = j by omega]

theorem trigII_eq {mp : Magic} (hmp : mp.Ok) {n k : ℕ} (hk : k < 4 * n) (y : Signal) :
    (trigII mp n y k).re = ∑ j ∈ range n, T (2 * n) (2 * j + 1) k (y j) := by
  have hn : 0 < n := by omega
  rw [trigII, show 4 * n = 2 * (2 * n) by ring, herm_dft hmp (by omega) (by omega), interleave_even y (by rfl), interleave_even y (by omega),
    sum_skip _ (fun p => T (2 * n) p k (interleaveZero y p)) (by rw [interleave_even y (by rfl), T_zero]),
    sum_oddR n _ (fun j hj => by rw [interleave_even y hj, T_zero])]
  simp only [interleave_odd]
  simp

theorem T_anti {M p k : ℕ} (hM : 0 < M) (hp : p ≤ M) (z : ℂ) : T M (M - p) (2 * k + 1) (- conj z) = T M p (2 * k + 1) z := by
  have hM' : (M : ℝ) ≠ 0 := by exact_mod_cast hM.ne'
  unfold T
  rw [show π * ((M - p : ℕ) : ℝ) * ((2 * k + 1 : ℕ) : ℝ) / M = (π - π * p * ((2 * k + 1 : ℕ) : ℝ) / M) + k * (2 * π) by
        rw [Nat.cast_sub hp]; push_cast; field_simp; ring,
      cos_add_nat_mul_two_pi, sin_add_nat_mul_two_pi, cos_pi_sub, sin_pi_sub]
  simp only [conj, Complex.neg_re, Complex.neg_im]
  ring

/-- the sum over the frequencies of an antihermitian spectrum at an odd place -/
theorem anti_sum {h k : ℕ} (hh : 0 < h) (y : Signal) :
    ∑ p ∈ range (2 * h - 1), T (2 * h) (p + 1) (2 * k + 1) (antihermitian (2 * h) y (p + 1)) =
      T (2 * h) h (2 * k + 1) (iimag (y h)) + ∑ p ∈ range (h - 1), 2 * T (2 * h) (p + 1) (2 * k + 1) (y (p + 1)) := by
  set g : ℕ → ℝ := fun p => if p = 0 then 0 else T (2 * h) p (2 * k + 1) (antihermitian (2 * h) y p) with hg
  have e : ∑ p ∈ range (2 * h - 1), T (2 * h) (p + 1) (2 * k + 1) (antihermitian (2 * h) y (p + 1)) = ∑ p ∈ range (2 * h), g p := by
    rw [← sum_skip _ g (by simp [hg])]
    exact sum_congr rfl fun p _ => by rw [hg]; simp
  rw [e, sum_fold h hh]
  congr 1
  · simp only [hg]
    rw [if_pos trivial, if_neg (by omega), antihermitian, array_eq (by omega), if_neg (by omega), if_neg (by omega), if_neg (by omega), zero_add]
  · refine sum_congr rfl fun p hp => ?_
    have hp := mem_range.1 hp
    simp only [hg]
    rw [if_neg (by omega), if_neg (by omega), antihermitian, array_eq (by omega), array_eq (by omega), if_neg (by omega), if_pos (by omega),
      if_neg (by omega), if_neg (by omega), if_pos (by omega), T_anti (by omega) (by omega), show 2 * h - (2 * h - (p + 1)) = p + 1 by omega]
    ring

theorem trigIII_eq {mp : Magic} (hmp : mp.Ok) {n k : ℕ} (hk : k < n) (y : Signal) :
    (trigIII mp n y k).re = 2 * (y 0).re + T (2 * n) n (2 * k + 1) (iimag (y n)) + ∑ p ∈ range (n - 1), 2 * T (2 * n) (p + 1) (2 * k + 1) (y (p + 1)) := by
  have hn : 0 < n := by omega
  rw [trigIII, show 4 * n = 2 * (2 * n) by ring]
  dsimp only
  rw [herm_dft hmp (by omega) (by omega), if_pos rfl, if_neg (by omega), if_pos rfl, add_assoc (2 * (y 0).re), ← anti_sum hn]
  congr 1
  · rw [Odd.neg_one_pow ⟨k, rfl⟩]
    simp [real]; ring
  · refine sum_congr rfl fun p hp => ?_
    have hp := mem_range.1 hp
    rw [if_neg (by omega), if_neg (by omega)]

theorem trigIV_eq {mp : Magic} (hmp : mp.Ok) {n k : ℕ} (hk : k < n) (y : Signal) :
    (trigIV mp n y k).re = ∑ j ∈ range n, 2 * T (4 * n) (2 * j + 1) (2 * k + 1) (y j) := by
  have hn : 0 < n := by omega
  have hz : ∀ i : ℕ, i < 4 * n → zeroExtend (4 * n) (antihermitian (4 * n) (interleaveZero y)) (i : ℤ) = antihermitian (4 * n) (interleaveZero y) i := by
    intro i hi
    rw [zeroExtend, if_pos ⟨by omega, by exact_mod_cast hi⟩, Int.toNat_natCast]
  rw [trigIV, show 8 * n = 2 * (4 * n) by ring]
  dsimp only
  rw [herm_dft hmp (by omega) (by omega), hz 0 (by omega)]
  have e0 : (antihermitian (4 * n) (interleaveZero y) 0).re = 0 := by simp [antihermitian, array, hn, iimag]
  have eM : zeroExtend (4 * n) (antihermitian (4 * n) (interleaveZero y)) ((4 * n : ℕ) : ℤ) = 0 := by
    rw [zeroExtend, if_neg (by omega)]
  rw [e0, eM, sum_congr rfl (fun p hp => by rw [hz (p + 1) (by have := mem_range.1 hp; omega)])]
  rw [show 4 * n = 2 * (2 * n) by ring, anti_sum (by omega), interleave_even y (i := 2 * n) (by omega),
    sum_skip _ (fun p => 2 * T (2 * (2 * n)) p (2 * k + 1) (interleaveZero y p)) (by rw [interleave_even y (by rfl), T_zero, mul_zero]),
    sum_oddR n _ (fun j hj => by rw [interleave_even y hj, T_zero, mul_zero])]
  simp [interleave_odd, iimag, T_zero]
  exact T_zero _ _ _

/-! ### the transforms -/

theorem zeroExtend_nat (n : ℕ) (x b : ℕ → ℝ) (i : ℕ) :
    (zeroExtend n (array n fun j => (⟨x j, b j⟩ : ℂ)) (i : ℤ)).re = if i < n then x i else 0 := by
  unfold zeroExtend
  by_cases h : i < n
  · rw [if_pos ⟨by omega, by exact_mod_cast h⟩, if_pos h, Int.toNat_natCast, array_eq h]
  · rw [if_neg (by push_cast; omega), if_neg h]; rfl

theorem zeroExtend_pred (n : ℕ) (x b : ℕ → ℝ) (i : ℕ) :
    (zeroExtend n (array n fun j => (⟨x j, b j⟩ : ℂ)) ((i : ℤ) - 1)).re = if 0 < i ∧ i ≤ n then x (i - 1) else 0 := by
  rcases i with _ | i
  · rw [zeroExtend, if_neg (by omega), if_neg (by omega)]; rfl
  · rw [show ((i + 1 : ℕ) : ℤ) - 1 = (i : ℤ) by push_cast; ring, zeroExtend_nat]
    simp

theorem T_real (M p k : ℕ) (z : ℂ) (s : ℝ) : T M p k (real ((s : ℂ) * z)) = 2 * s * cos (π * p * k / M) * z.re := by
  simp [T, real]; ring

theorem T_imag (M p k : ℕ) (z : ℂ) (s : ℝ) : T M p k (- (Complex.I * ((s : ℂ) * real z))) = 2 * s * sin (π * p * k / M) * z.re := by
  simp [T, real]; ring

theorem iimag_real (z : ℂ) : iimag (real z) = 0 := by apply Complex.ext <;> simp [iimag, real]

theorem half_cast : (1 / 2 : ℂ) = ((1 / 2 : ℝ) : ℂ) := by push_cast; rfl
theorem one_cast : (1 : ℂ) = ((1 : ℝ) : ℂ) := by push_cast; rfl

variable {mp : Magic} (hmp : mp.Ok) {n k : ℕ} (hk : k < n) (x b : ℕ → ℝ)
include hmp hk

theorem dht_eq : (dht mp 1 n (array n fun j => (⟨x j, b j⟩ : ℂ)) k).re = ∑ j ∈ range n, rK .DHT n j k * x j := by
  unfold dht
  rw [dft_ok mp hmp n 1 (Or.inl rfl) _ k hk, dftSum]
  have : ∀ j ∈ range n, cis n (1 * (j : ℤ) * k) * real (array n (fun j => (⟨x j, b j⟩ : ℂ)) j) =
      ⟨cos (2 * π * j * k / n) * x j, sin (2 * π * j * k / n) * x j⟩ := by
    intro j hj
    rw [array_eq (mem_range.1 hj), show real (⟨x j, b j⟩ : ℂ) = ⟨x j, 0⟩ from rfl, cisr,
      show 2 * π * ((1 * (j : ℤ) * k : ℤ) : ℝ) / n = 2 * π * j * k / n by push_cast; ring]
  rw [sum_congr rfl this]
  simp only [real, imag, Complex.add_re, Complex.ofReal_re]
  rw [sum_re, sum_im, ← sum_add_distrib]
  exact sum_congr rfl fun j _ => by simp only [rK]; ring

theorem dctI_eq (h2 : 2 ≤ n) : (dctI mp n (array n fun j => (⟨x j, b j⟩ : ℂ)) k).re = ∑ j ∈ range n, rK .REDFT00 n j k * x j := by
  obtain ⟨m, rfl⟩ : ∃ m, n = m + 2 := ⟨n - 2, by omega⟩
  rw [dctI, makeDct, show m + 2 - 1 = m + 1 by omega, trigI_eq hmp (by omega) (by omega), one_cast, sum_range_succ, sum_range_succ']
  simp only [T_real, zeroExtend_nat, Nat.add_sub_cancel]
  simp only [rK]
  have h : ∀ z : ℂ, (real (((1 : ℝ) : ℂ) * z)).re = z.re := by intro z; simp [real]
  rw [h, h, zeroExtend_nat, zeroExtend_nat]
  rw [if_pos (by omega), if_pos (by omega), if_pos trivial, if_neg (by omega), if_pos trivial]
  have : ∀ p ∈ range m, 2 * 1 * cos (π * ((p + 1 : ℕ) : ℝ) * k / ((m + 1 : ℕ) : ℝ)) * (if p + 1 < m + 2 then x (p + 1) else 0) =
      (if p + 1 = 0 then 1 else if p + 1 + 1 = m + 2 then (-1) ^ k else 2 * cos (π * ((p + 1 : ℕ) : ℝ) * k / (((m + 2 : ℕ) : ℝ) - 1))) * x (p + 1) := by
    intro p hp
    have := mem_range.1 hp
    rw [if_pos (by omega), if_neg (by omega), if_neg (by omega), show ((m + 2 : ℕ) : ℝ) - 1 = ((m + 1 : ℕ) : ℝ) by push_cast; ring]
    ring
  rw [sum_congr rfl this]
  ring

theorem dctII_eq : (dctII mp n (array n fun j => (⟨x j, b j⟩ : ℂ)) k).re = ∑ j ∈ range n, rK .REDFT10 n j k * x j := by
  have hn : (n : ℝ) ≠ 0 := by exact_mod_cast (by omega : n ≠ 0)
  rw [dctII, makeDct, Nat.sub_zero, trigII_eq hmp (by omega), one_cast]
  refine sum_congr rfl fun j hj => ?_
  rw [T_real, zeroExtend_nat, if_pos (mem_range.1 hj)]
  simp only [rK]
  rw [show π * ((2 * j + 1 : ℕ) : ℝ) * k / ((2 * n : ℕ) : ℝ) = π * (j + 1 / 2) * k / n by push_cast; field_simp]
  ring

theorem dctIII_eq : (dctIII mp n (array n fun j => (⟨x j, b j⟩ : ℂ)) k).re = ∑ j ∈ range n, rK .REDFT01 n j k * x j := by
  obtain ⟨m, rfl⟩ : ∃ m, n = m + 1 := ⟨n - 1, by omega⟩
  have hn : ((m + 1 : ℕ) : ℝ) ≠ 0 := by exact_mod_cast (by omega : m + 1 ≠ 0)
  rw [dctIII, makeDct, Nat.sub_zero, trigIII_eq hmp hk, half_cast, iimag_real, T_zero, sum_range_succ', Nat.add_sub_cancel, add_zero, add_comm]
  congr 1
  · refine sum_congr rfl fun j hj => ?_
    have := mem_range.1 hj
    rw [T_real, zeroExtend_nat, if_pos (by omega)]
    simp only [rK]
    rw [if_neg (by omega), show π * ((j + 1 : ℕ) : ℝ) * ((2 * k + 1 : ℕ) : ℝ) / ((2 * (m + 1) : ℕ) : ℝ) = π * ((j + 1 : ℕ) : ℝ) * (k + 1 / 2) / ((m + 1 : ℕ) : ℝ) by
      push_cast at hn ⊢; field_simp]
    ring
  · have h : ∀ z : ℂ, (real (((1 / 2 : ℝ) : ℂ) * z)).re = 1 / 2 * z.re := by intro z; simp [real]
    rw [h, zeroExtend_nat, if_pos (by omega)]
    simp only [rK]
    rw [if_pos trivial]; ring

theorem dctIV_eq : (dctIV mp n (array n fun j => (⟨x j, b j⟩ : ℂ)) k).re = ∑ j ∈ range n, rK .REDFT11 n j k * x j := by
  have hn : (n : ℝ) ≠ 0 := by exact_mod_cast (by omega : n ≠ 0)
  rw [dctIV, makeDct, Nat.sub_zero, trigIV_eq hmp hk, half_cast]
  refine sum_congr rfl fun j hj => ?_
  rw [T_real, zeroExtend_nat, if_pos (mem_range.1 hj)]
  simp only [rK]
  rw [show π * ((2 * j + 1 : ℕ) : ℝ) * ((2 * k + 1 : ℕ) : ℝ) / ((4 * n : ℕ) : ℝ) = π * (j + 1 / 2) * (k + 1 / 2) / n by push_cast; field_simp; ring]
  ring

theorem dstI_eq : (dstI mp n (array n fun j => (⟨x j, b j⟩ : ℂ)) k).re = ∑ j ∈ range n, rK .RODFT00 n j k * x j := by
  rw [dstI, makeDst]
  dsimp only
  rw [show (real (trigI mp (n + 1) (fun i => - (Complex.I * (1 * real (shift 1 (zeroExtend n (array n fun j => (⟨x j, b j⟩ : ℂ))) (i : ℤ))))) (k + 1))).re = (trigI mp (n + 1) (fun i => - (Complex.I * (1 * real (shift 1 (zeroExtend n (array n fun j => (⟨x j, b j⟩ : ℂ))) (i : ℤ))))) (k + 1)).re from rfl,
    trigI_eq hmp (by omega) (by omega), one_cast, Nat.add_sub_cancel]
  have h : ∀ z : ℂ, (- (Complex.I * (((1 : ℝ) : ℂ) * real z))).re = 0 := by intro z; simp [real]
  rw [h, h, mul_zero, zero_add, zero_add]
  refine sum_congr rfl fun j hj => ?_
  have := mem_range.1 hj
  rw [T_imag, shift, zeroExtend_pred, if_pos (by omega), Nat.add_sub_cancel]
  simp only [rK]
  push_cast
  ring

theorem dstII_eq : (dstII mp n (array n fun j => (⟨x j, b j⟩ : ℂ)) k).re = ∑ j ∈ range n, rK .RODFT10 n j k * x j := by
  have hn : (n : ℝ) ≠ 0 := by exact_mod_cast (by omega : n ≠ 0)
  rw [dstII, makeDst, Nat.add_zero]
  show (trigII mp n _ (k + 1)).re = _
  rw [trigII_eq hmp (by omega), one_cast]
  refine sum_congr rfl fun j hj => ?_
  rw [T_imag, shift, sub_zero, zeroExtend_nat, if_pos (mem_range.1 hj)]
  simp only [rK]
  rw [show π * ((2 * j + 1 : ℕ) : ℝ) * ((k + 1 : ℕ) : ℝ) / ((2 * n : ℕ) : ℝ) = π * (j + 1 / 2) * (k + 1) / n by push_cast; field_simp]
  ring

theorem dstIII_eq : (dstIII mp n (array n fun j => (⟨x j, b j⟩ : ℂ)) k).re = ∑ j ∈ range n, rK .RODFT01 n j k * x j := by
  obtain ⟨m, rfl⟩ : ∃ m, n = m + 1 := ⟨n - 1, by omega⟩
  have hn : ((m + 1 : ℕ) : ℝ) ≠ 0 := by exact_mod_cast (by omega : m + 1 ≠ 0)
  rw [dstIII, makeDst, Nat.add_zero]
  show (trigIII mp (m + 1) _ k).re = _
  rw [trigIII_eq hmp hk, half_cast, sum_range_succ, Nat.add_sub_cancel, add_comm]
  have h : ∀ z : ℂ, (- (Complex.I * (((1 / 2 : ℝ) : ℂ) * real z))).re = 0 := by intro z; simp [real]
  have h' : ∀ z : ℂ, iimag (- (Complex.I * (((1 / 2 : ℝ) : ℂ) * real z))) = - (Complex.I * (((1 / 2 : ℝ) : ℂ) * real z)) := by
    intro z; apply Complex.ext <;> simp [real, iimag]
  rw [h, h', mul_zero, zero_add]
  congr 1
  · refine sum_congr rfl fun j hj => ?_
    have := mem_range.1 hj
    rw [T_imag, shift, zeroExtend_pred, if_pos (by omega), Nat.add_sub_cancel]
    simp only [rK]
    rw [if_neg (by omega), show π * ((j + 1 : ℕ) : ℝ) * ((2 * k + 1 : ℕ) : ℝ) / ((2 * (m + 1) : ℕ) : ℝ) = π * (j + 1) * (k + 1 / 2) / ((m + 1 : ℕ) : ℝ) by
      push_cast at hn ⊢; field_simp]
    ring
  · rw [T_imag, shift, zeroExtend_pred, if_pos (by omega), Nat.add_sub_cancel]
    simp only [rK]
    rw [if_pos trivial, show π * ((m + 1 : ℕ) : ℝ) * ((2 * k + 1 : ℕ) : ℝ) / ((2 * (m + 1) : ℕ) : ℝ) = k * π + π / 2 by push_cast at hn ⊢; field_simp,
      sin_add_pi_div_two, cos_nat_mul_pi]
    ring

theorem dstIV_eq : (dstIV mp n (array n fun j => (⟨x j, b j⟩ : ℂ)) k).re = ∑ j ∈ range n, rK .RODFT11 n j k * x j := by
  have hn : (n : ℝ) ≠ 0 := by exact_mod_cast (by omega : n ≠ 0)
  rw [dstIV, makeDst, Nat.add_zero]
  show (trigIV mp n _ k).re = _
  rw [trigIV_eq hmp hk, half_cast]
  refine sum_congr rfl fun j hj => ?_
  rw [T_imag, shift, sub_zero, zeroExtend_nat, if_pos (mem_range.1 hj)]
  simp only [rK]
  rw [show π * ((2 * j + 1 : ℕ) : ℝ) * ((2 * k + 1 : ℕ) : ℝ) / ((4 * n : ℕ) : ℝ) = π * (j + 1 / 2) * (k + 1 / 2) / n by push_cast; field_simp; ring]
  ring

theorem transform_eq (mode : R2rMode) (hm : mode = .REDFT00 → 2 ≤ n) :
    (mode.transform mp n (array n fun j => (⟨x j, b j⟩ : ℂ)) k).re = ∑ j ∈ range n, rK mode.kind n j k * x j := by
  cases mode
  · exact dht_eq hmp hk x b
  · exact dctI_eq hmp hk x b (hm rfl)
  · exact dctII_eq hmp hk x b
  · exact dctIII_eq hmp hk x b
  · exact dctIV_eq hmp hk x b
  · exact dstI_eq hmp hk x b
  · exact dstII_eq hmp hk x b
  · exact dstIII_eq hmp hk x b
  · exact dstIV_eq hmp hk x b

omit hk in
theorem r2r_sound (bug : ℕ → ℝ) (mode : R2rMode) (n : ℕ) (hm : mode = .REDFT00 → 2 ≤ n) : (r2r mp bug mode n).Sound where
  loop := by
    intro I O is os vl ivs ovs st
    simp [r2r, forN, iter, Ptr.add_zero]
  one := by
    intro I O is os st hinj
    have e : (r2r mp bug mode n).k I O is os 1 0 0 st = r2rStep mp bug mode n I O is os st := by
      simp [r2r, forN, iter, Ptr.add_zero]
    rw [e]
    have f : FillP st.mem st.next n (fun k => O + (k : ℤ) * os)
        (fun k => ∑ j ∈ range n, rK mode.kind n j k * st.mem (I + (j : ℤ) * is)) (fun k => k < n) (r2rStep mp bug mode n I O is os st) := by
      unfold r2rStep storeR
      dsimp only
      refine FillP.loop (S := fun i k => k < i) ((FillP.start st n _ _).mono (by intro k _ h; omega)) ?_
      intro i hi s hs
      exact (hs.set hinj hi rfl (transform_eq hmp hi (fun j => st.mem (I + (j : ℤ) * is)) bug mode hm)).mono (by intro k _ h; omega)
    exact ⟨f.next, f.out, fun k hk => f.val k hk hk⟩

end FFTW.Genfft

/-! ### rdft/direct-r2r.c -/

namespace FFTW.RdftS
open Tensor Spec DftS Finset FFTW.Api
variable [CLib]

omit [CLib] in
theorem GOK_r2r {c : KR2r} (hc : c.Sound) (is os : ℤ) (vl : ℕ) (ivs ovs : ℤ) (inpl : Bool) (h : inpl = true → vl ≤ 1 ∨ is = os ∧ ivs = ovs) :
    GOK rK [(⟨c.n, is, os⟩, c.kind)] (some [⟨vl, ivs, ovs⟩]) 0 0 inpl true (fun I O => c.k I O is os vl ivs ovs) := by
  have hx : R1x c.kind c.n is os (fun I O => c.k I O is os 1 0 0) := by
    intro ho I O st bI bO
    have h2 := hc.one I O is os st fun k hk k' hk' e => ho k k' hk hk' ((ptr_add_right_inj O).1 e)
    exact ⟨h2.next.ge, fun q _ hq => h2.other q hq, fun k hk => h2.val k hk⟩
  have h1 : GOK rK [(⟨c.n, is, os⟩, c.kind)] (some []) 0 0 inpl true (fun I O => c.k I O is os 1 0 0) := GOK_rank1R (d := ⟨c.n, is, os⟩) (hx.toR1 _ _)
  rcases (by omega : vl = 0 ∨ vl = 1 ∨ 2 ≤ vl) with rfl | rfl | hv
  · exact (GOK_empty (K := rK) (Genfft.pairs_zero _ _) _ _ _ _).congr fun I O st => hc.loop I O is os 0 ivs ovs st
  · refine (h1.vec_congr (Genfft.pairs_one _ _)).congr ?_
    intro I O st
    rw [hc.loop]
    simp [forN, iter, Ptr.add_zero]
  · refine GOK.congr (f := fun I O st => forN vl (fun i st => c.k (I + (i : ℤ) * ivs) (O + (i : ℤ) * ovs) is os 1 0 0 st) st) ?_
      (fun I O st => hc.loop I O is os vl ivs ovs st)
    by_cases hi : inpl = true
    · have h' : is = os ∧ ivs = ovs := (h hi).resolve_left (by omega)
      obtain ⟨rfl, rfl⟩ := h'
      refine GOK_loop (d := ⟨vl, ivs, ivs⟩) h1 (fun _ => ?_) (fun _ => rfl)
      rw [ins_locT_real, outs_locT_real]; rfl
    · exact GOK_loop (d := ⟨vl, ivs, ovs⟩) h1 (fun h => absurd h hi) (fun h => absurd h hi)

theorem directR2r_sound (c : KR2r) (hc : c.Sound) : (directR2r c).Sound := by
  apply rdftSolver_sound
  intro p fl hk
  obtain ⟨hn0, hap, hvp, hip⟩ := kosher_rdft hk
  split
  rotate_left
  · exact good_nada
  rename_i d kind v hsz hv
  split
  rotate_left
  · exact good_nada
  rename_i vd htor
  split
  rotate_left
  · exact good_nada
  rename_i happ
  simp only [directR2rApplicable, Bool.and_eq_true, Bool.or_eq_true, decide_eq_true_eq, inplaceStrides2, inplaceStrides, List.all_eq_true] at happ
  obtain ⟨⟨e1, rfl⟩, hst⟩ := happ
  apply good_ret
  refine soundRdft (by simp [hv]) ?_
  rw [hsz, hv]
  have key := GOK_r2r hc d.is d.os vd.n vd.is vd.os (decide (p.I = p.O)) ?_
  · rw [← e1] at key
    exact (key.vec_congr (tornk1_pairs htor)).weaken (by simp)
  · intro h
    rcases hst with (h' | h') | ⟨h', h''⟩
    · exact absurd (of_decide_eq_true h) h'
    · exact Or.inl h'.le
    · match v, htor, h'' with
      | [], ht, _ => obtain rfl := Option.some.inj ht; exact Or.inl (by simp)
      | [e], ht, h'' => obtain rfl := Option.some.inj ht; exact Or.inr ⟨h' _ (by simp), h'' _ (by simp)⟩

end FFTW.RdftS
