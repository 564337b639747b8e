import Verif.Proofs.R2rInverse
import Verif.Proofs.DhtRader
import Verif.Props.Reodft

/-!
# C34: real transforms agree with the complex DFT; C36: the unnormalised inverses of the r2r kinds
-/

namespace FFTW.RdftS
open Tensor Spec Finset DftS Complex

theorem expR (x : ℝ) (a : ℝ) : (x : ℂ) * exp (-(a * I)) = ⟨x * Real.cos a, - (x * Real.sin a)⟩ := by
  rw [show -((a : ℂ) * I) = ((-a : ℝ) : ℂ) * I by push_cast; ring, exp_mul_I]
  apply Complex.ext
  · simp [-ofReal_neg, ← ofReal_cos, ← ofReal_sin]
  · simp [-ofReal_neg, ← ofReal_cos, ← ofReal_sin]

theorem dftR_re_im (n : ℕ) (x : ℕ → ℝ) (k : ℕ) :
    (dftR n x k).re = ∑ j ∈ range n, x j * Real.cos (2 * Real.pi * j * k / n) ∧ (dftR n x k).im = - ∑ j ∈ range n, x j * Real.sin (2 * Real.pi * j * k / n) := by
  have : dftR n x k = ∑ j ∈ range n, (⟨x j * Real.cos (2 * Real.pi * j * k / n), - (x j * Real.sin (2 * Real.pi * j * k / n))⟩ : ℂ) := by
    unfold dftR
    refine sum_congr rfl fun j _ => ?_
    rw [← expR]
    congr 2
    push_cast
    ring
  rw [this]
  constructor
  · rw [re_sum]
  · rw [im_sum, ← sum_neg_distrib]

/-- **C34**: the output of a real-to-halfcomplex transform is the halfcomplex form of the complex DFT of the input: slot `k` holds the real part of
frequency `k` (`k ≤ n/2`), slot `n-k` the imaginary part of frequency `k` (`0 < k < n/2`) -/
theorem C34_r2hc_is_dft {n : ℕ} (x : ℕ → ℝ) :
    (∀ k, 2 * k ≤ n → docR2r .R2HC00 n x k = (dftR n x k).re) ∧ ∀ k, 0 < k → 2 * k < n → docR2r .R2HC00 n x (n - k) = (dftR n x k).im := by
  constructor
  · intro k hk
    rw [(dftR_re_im n x k).1]
    exact sum_congr rfl fun j _ => by rw [r2hc_lo j hk, mul_comm]
  · intro k h0 hk
    rw [(dftR_re_im n x k).2, ← sum_neg_distrib]
    exact sum_congr rfl fun j _ => by rw [r2hc_hi j h0 hk]; ring

theorem spectrum_eq {n : ℕ} (h : ℕ → ℝ) {k : ℕ} (hk : k < n) : hcSpectrum n h k = ⟨hcRe n h k, hcIm n h k⟩ := by
  unfold hcSpectrum hcRe hcIm
  by_cases h1 : k = 0 ∨ 2 * k = n
  · rw [if_pos h1, if_pos (show 2 * k ≤ n by omega), if_pos (show k = 0 ∨ k = n ∨ 2 * k = n by omega)]; rfl
  · rw [if_neg h1, if_neg (show ¬ (k = 0 ∨ k = n ∨ 2 * k = n) by omega)]
    by_cases h2 : 2 * k < n
    · rw [if_pos h2, if_pos (show 2 * k ≤ n by omega), if_pos h2]; apply Complex.ext <;> simp
    · rw [if_neg h2, if_neg (show ¬ 2 * k ≤ n by omega), if_neg h2]; apply Complex.ext <;> simp

/-- **C34**: the remaining coefficients of the DFT of real data are the conjugates of these, so nothing is lost: the spectrum stored in the output is
the DFT -/
theorem C34_r2hc_spectrum {n : ℕ} (x : ℕ → ℝ) {k : ℕ} (hk : k < n) : hcSpectrum n (docR2r .R2HC00 n x) k = dftR n x k := by
  obtain ⟨h1, h2⟩ := hc_spec (by omega) (b := x) (y := docR2r .R2HC00 n x) (fun _ _ => rfl) (k := k) (by omega)
  obtain ⟨h3, h4⟩ := dftR_re_im n x k
  rw [spectrum_eq _ hk]
  apply Complex.ext
  · rw [h3]; exact h1
  · rw [h4, ← sum_neg_distrib]; refine h2.trans (sum_congr rfl fun j _ => by ring)

/-- **C34**: a halfcomplex-to-real transform computes the backward DFT of the spectrum stored in its input -/
theorem C34_hc2r_is_dft {n : ℕ} (hn : 0 < n) (h : ℕ → ℝ) (k : ℕ) :
    (docR2r .HC2R00 n h k : ℂ) = ∑ q ∈ range n, hcSpectrum n h q * exp (2 * Real.pi * I * q * k / n) := by
  have e : ∀ q : ℕ, exp (2 * Real.pi * I * q * k / n) = ⟨Real.cos (2 * Real.pi * q * k / n), Real.sin (2 * Real.pi * q * k / n)⟩ := by
    intro q
    rw [show 2 * (Real.pi : ℂ) * I * q * k / n = ((2 * Real.pi * q * k / n : ℝ) : ℂ) * I by push_cast; ring, exp_mul_I]
    apply Complex.ext
    · simp [-ofReal_mul, -ofReal_div, ← ofReal_cos, ← ofReal_sin]
    · simp [-ofReal_mul, -ofReal_div, ← ofReal_cos, ← ofReal_sin]
  have e2 : ∑ q ∈ range n, hcSpectrum n h q * exp (2 * Real.pi * I * q * k / n) =
      ∑ q ∈ range n, (⟨hcRe n h q * Real.cos (2 * Real.pi * q * k / n) - hcIm n h q * Real.sin (2 * Real.pi * q * k / n),
        hcRe n h q * Real.sin (2 * Real.pi * q * k / n) + hcIm n h q * Real.cos (2 * Real.pi * q * k / n)⟩ : ℂ) := by
    refine sum_congr rfl fun q hq => ?_
    rw [spectrum_eq h (mem_range.1 hq), e]
    apply Complex.ext <;> simp
  have r0 : hcRe n h 0 = h 0 := by rw [hcRe, if_pos (by omega)]
  have i0 : hcIm n h 0 = 0 := by rw [hcIm, if_pos (by omega)]
  have hn' : (n : ℝ) ≠ 0 := by positivity
  have mid : n % 2 = 0 → 2 * Real.pi * ((n / 2 : ℕ) : ℝ) * k / n = k * Real.pi := by
    intro hm
    have : (n : ℝ) = 2 * ((n / 2 : ℕ) : ℝ) := by exact_mod_cast (by omega : n = 2 * (n / 2))
    generalize n / 2 = p at *
    rw [this]; rw [this] at hn'
    have : (p : ℝ) ≠ 0 := fun h => hn' (by rw [h]; ring)
    field_simp
  rw [e2]
  apply Complex.ext
  · rw [ofReal_re, re_sum, sum_pairs hn]
    show ∑ j ∈ range n, rK .HC2R00 n j k * h j = _
    rw [sum_pairs hn]
    congr 1
    · congr 1
      · rw [hc2r_zero, r0, i0]; simp
      · refine sum_congr rfl fun i hi => ?_
        have hi := mem_range.1 hi
        have a1 : hcRe n h (i + 1) = h (i + 1) := by rw [hcRe, if_pos (by omega)]
        have a2 : hcRe n h (n - (i + 1)) = h (i + 1) := by rw [hcRe, if_neg (by omega), show n - (n - (i + 1)) = i + 1 by omega]
        have b1 : hcIm n h (i + 1) = h (n - (i + 1)) := by rw [hcIm, if_neg (by omega), if_pos (by omega)]
        have b2 : hcIm n h (n - (i + 1)) = - h (n - (i + 1)) := by rw [hcIm, if_neg (by omega), if_neg (by omega)]
        rw [hc2r_lo k (by omega) (by omega), hc2r_hi k (by omega) (by omega), a1, a2, b1, b2, cos_swap (by omega) hn, sin_swap (by omega) hn]
        ring
    · split_ifs with hm
      · have a1 : hcRe n h (n / 2) = h (n / 2) := by rw [hcRe, if_pos (by omega)]
        have b1 : hcIm n h (n / 2) = 0 := by rw [hcIm, if_pos (by omega)]
        rw [hc2r_mid k (by omega) (by omega), a1, b1, mid hm, Real.cos_nat_mul_pi]
        ring
      · rfl
  · rw [ofReal_im, im_sum, sum_pairs hn]
    have z : ∀ i ∈ range ((n - 1) / 2), (hcRe n h (i + 1) * Real.sin (2 * Real.pi * ((i + 1 : ℕ) : ℝ) * k / n) + hcIm n h (i + 1) * Real.cos (2 * Real.pi * ((i + 1 : ℕ) : ℝ) * k / n)) +
        (hcRe n h (n - (i + 1)) * Real.sin (2 * Real.pi * ((n - (i + 1) : ℕ) : ℝ) * k / n) + hcIm n h (n - (i + 1)) * Real.cos (2 * Real.pi * ((n - (i + 1) : ℕ) : ℝ) * k / n)) = 0 := by
      intro i hi
      have hi := mem_range.1 hi
      have a1 : hcRe n h (i + 1) = h (i + 1) := by rw [hcRe, if_pos (by omega)]
      have a2 : hcRe n h (n - (i + 1)) = h (i + 1) := by rw [hcRe, if_neg (by omega), show n - (n - (i + 1)) = i + 1 by omega]
      have b1 : hcIm n h (i + 1) = h (n - (i + 1)) := by rw [hcIm, if_neg (by omega), if_pos (by omega)]
      have b2 : hcIm n h (n - (i + 1)) = - h (n - (i + 1)) := by rw [hcIm, if_neg (by omega), if_neg (by omega)]
      rw [a1, a2, b1, b2, cos_swap (by omega) hn, sin_swap (by omega) hn]
      ring
    rw [sum_congr rfl z, sum_const_zero, i0]
    split_ifs with hm
    · have b1 : hcIm n h (n / 2) = 0 := by rw [hcIm, if_pos (by omega)]
      dsimp only
      rw [b1, mid hm, Real.sin_nat_mul_pi]; simp
    · simp

/-- **C34**: hc2r inverts r2hc up to the factor `n`, and conversely -/
theorem C34_hc2r_inverts_r2hc {n : ℕ} (x : ℕ → ℝ) {m : ℕ} (hm : m < n) :
    docR2r .HC2R00 n (docR2r .R2HC00 n x) m = n * x m ∧ docR2r .R2HC00 n (docR2r .HC2R00 n x) m = n * x m := by
  have hn : 0 < n := by omega
  constructor
  · show ∑ j ∈ range n, rK .HC2R00 n j m * docR2r .R2HC00 n x j = _
    rw [← hc2r_of_dht _ hm, ← R2rInv.dht_dht hn x hm]
    refine sum_congr rfl fun k hk => ?_
    rw [dht_of_r2hc x (docR2r .R2HC00 n x) (fun _ _ => rfl) (mem_range.1 hk)]
  · set z := bfly (fun a b => a - b) (fun a b => a + b) n x with hz
    have h1 : ∀ k < n, docR2r .HC2R00 n x k = ∑ j ∈ range n, rK .DHT n j k * z j := fun k hk => (hc2r_of_dht x hk).symm
    show ∑ j ∈ range n, rK .R2HC00 n j m * docR2r .HC2R00 n x j = _
    rw [← r2hc_of_dht (docR2r .HC2R00 n x) (fun k => n * z k) (fun k hk => by
      rw [← R2rInv.dht_dht hn z hk]; exact sum_congr rfl fun j hj => by rw [h1 j (mem_range.1 hj)]) hm]
    rw [hz, bfly]
    split_ifs with h h'
    · rw [bfly, if_pos h]
    · rw [bfly, if_neg h, if_pos h', bfly, if_neg (by omega), if_neg (by omega), show n - (n - m) = m by omega]; ring
    · rw [bfly, if_neg h, if_neg h', bfly, if_neg (by omega), if_pos (by omega), show n - (n - m) = m by omega]; ring

/-! ### the solvers -/

section
variable [CLib]

/-- **C34**: the O(n²) solver for r2hc and hc2r of odd (prime) sizes -/
theorem C34_generic {cx : ℕ → ℤ → ℝ × ℝ} (hc : ExactCexp cx) {kind : RKind} (hkind : kind = .R2HC00 ∨ kind = .HC2R00) (taste : Taste) :
    (genericR cx kind taste).Sound := genericR_sound hc hkind taste
/-- **C34**: a Hartley transform by an r2hc transform -/
theorem C34_dht_r2hc (taste : Taste) : (dhtR2hc taste).Sound := dhtR2hc_sound taste
/-- **C34**: r2hc and hc2r transforms by a Hartley transform -/
theorem C34_rdft_dht (taste : Taste) : (rdftDht taste).Sound := rdftDht_sound taste
/-- **C34**: Rader's algorithm for Hartley transforms, with and without padding -/
theorem C34_dht_rader {cx : ℕ → ℤ → ℝ × ℝ} (hc : ExactCexp cx) (pad : Bool) (taste : Taste) : (dhtRader cx pad taste).Sound := dhtRader_sound hc pad taste

theorem prime17 : Primes.isPrime 17 = some true := by
  rw [Primes.isPrime_some (by norm_num)]; simpa using (by norm_num : Nat.Prime 17)

/-- each of them makes plans -/
example (cx : ℕ → ℤ → ℝ × ℝ) (fl : Flags) (c : Plan) : (((genericR cx .HC2R00 fun _ _ => true).mkplan (.rdft ⟨[(⟨17, 1, 1⟩, .HC2R00)], some [], ⟨0, 0⟩, ⟨1, 0⟩⟩) fl).answer c).isSome = true := by
  simp [genericR, rdftSolver, prime17, Mk.answer]
example (fl : Flags) (c : Plan) : (((dhtR2hc fun _ _ => true).mkplan (.rdft ⟨[(⟨17, 1, 1⟩, .DHT)], some [], ⟨0, 0⟩, ⟨1, 0⟩⟩) fl).answer c).isSome = true := by
  simp [dhtR2hc, rdftSolver, Mk.need, Mk.answer]
example (fl : Flags) (c : Plan) : (((rdftDht fun _ _ => true).mkplan (.rdft ⟨[(⟨17, 1, 1⟩, .R2HC00)], some [], ⟨0, 0⟩, ⟨1, 0⟩⟩) fl).answer c).isSome = true := by
  simp [rdftDht, rdftSolver, Mk.need, Mk.answer]
example (cx : ℕ → ℤ → ℝ × ℝ) (fl : Flags) (c : Plan) : (((dhtRader cx false fun _ _ => true).mkplan (.rdft ⟨[(⟨17, 1, 1⟩, .DHT)], some [], ⟨0, 0⟩, ⟨1, 0⟩⟩) fl).answer c).isSome = true := by
  simp [dhtRader, rdftSolver, prime17, dhtNpad, Mk.need, Mk.answer]

end

/-- a concrete spectrum -/
example : docR2r .R2HC00 2 (fun j => if j = 0 then 5 else 3) 1 = 2 := by
  have h : Real.cos (2 * Real.pi / 2) = -1 := by rw [show 2 * Real.pi / 2 = Real.pi by ring]; exact Real.cos_pi
  simp [docR2r, rK, r2hcK, sum_range_succ, h]
  norm_num

/-! ### C36 -/

/-- **C36**: each r2r kind followed by its documented inverse is multiplication by the documented logical size -/
theorem C36_inverse {kd : RKind} (hk : IsR2r kd) {n : ℕ} (h2 : kd = .REDFT00 → 2 ≤ n) (x : ℕ → ℝ) {m : ℕ} (hm : m < n) :
    docR2r (invKind kd) n (docR2r kd n x) m = logicalN kd n * x m := by
  have hn : 0 < n := by omega
  have comp : ∀ {ki : RKind} {N : ℝ}, (ki = .REDFT00 → 2 ≤ n) → (∀ j < n, ∑ k ∈ range n, rK ki n k m * rK kd n j k = if j = m then N else 0) →
      docR2r ki n (docR2r kd n x) m = N * x m := by
    intro ki N h3 h
    rw [← Reodft.C35_kernel_is_documented hn h3]
    simp only [← Reodft.C35_kernel_is_documented hn h2, mul_sum, ← mul_assoc]
    rw [sum_comm]
    simp only [← sum_mul]
    rw [sum_congr rfl fun j hj => by rw [h j (mem_range.1 hj)]]
    simp [hm]
  rcases hk with hk | rfl | rfl | rfl
  · simp only [IsReodft, List.mem_cons, List.not_mem_nil, or_false] at hk
    rcases hk with rfl | rfl | rfl | rfl | rfl | rfl | rfl | rfl
    · have := h2 rfl
      show docR2r .REDFT00 n (docR2r .REDFT00 n x) m = ((2 * (n - 1) : ℕ) : ℝ) * x m
      rw [Nat.cast_mul, Nat.cast_sub (by omega)]
      exact comp h2 fun j hj => by rw [R2rInv.redft00 this hj hm]; norm_num
    · show docR2r .REDFT10 n (docR2r .REDFT01 n x) m = ((2 * n : ℕ) : ℝ) * x m
      rw [Nat.cast_mul]; exact comp (by simp) fun j hj => by rw [R2rInv.redft01 hj hm]; norm_num
    · show docR2r .REDFT01 n (docR2r .REDFT10 n x) m = ((2 * n : ℕ) : ℝ) * x m
      rw [Nat.cast_mul]; exact comp (by simp) fun j hj => by rw [R2rInv.redft10 hj hm]; norm_num
    · show docR2r .REDFT11 n (docR2r .REDFT11 n x) m = ((2 * n : ℕ) : ℝ) * x m
      rw [Nat.cast_mul]; exact comp (by simp) fun j hj => by rw [R2rInv.redft11 hj hm]; norm_num
    · show docR2r .RODFT00 n (docR2r .RODFT00 n x) m = ((2 * (n + 1) : ℕ) : ℝ) * x m
      rw [Nat.cast_mul]; exact comp (by simp) fun j hj => by rw [R2rInv.rodft00 hj hm]; norm_num
    · show docR2r .RODFT10 n (docR2r .RODFT01 n x) m = ((2 * n : ℕ) : ℝ) * x m
      rw [Nat.cast_mul]; exact comp (by simp) fun j hj => by rw [R2rInv.rodft01 hj hm]; norm_num
    · show docR2r .RODFT01 n (docR2r .RODFT10 n x) m = ((2 * n : ℕ) : ℝ) * x m
      rw [Nat.cast_mul]; exact comp (by simp) fun j hj => by rw [R2rInv.rodft10 hj hm]; norm_num
    · show docR2r .RODFT11 n (docR2r .RODFT11 n x) m = ((2 * n : ℕ) : ℝ) * x m
      rw [Nat.cast_mul]; exact comp (by simp) fun j hj => by rw [R2rInv.rodft11 hj hm]; norm_num
  · exact (C34_hc2r_inverts_r2hc x hm).1
  · exact (C34_hc2r_inverts_r2hc x hm).2
  · exact comp (ki := .DHT) (by simp) fun j hj => R2rInv.dht hj hm

/-- the hypotheses can be met -/
example : docR2r .REDFT01 3 (docR2r .REDFT10 3 fun j => (j : ℝ) + 1) 2 = 6 * 3 := by
  have := C36_inverse (kd := .REDFT10) (Or.inl (by simp [IsReodft])) (n := 3) (by simp) (fun j => (j : ℝ) + 1) (m := 2) (by norm_num)
  norm_num [invKind, logicalN] at this ⊢
  exact this

end FFTW.RdftS
