import Verif.Proofs.HcMath

/-! # Halfcomplex twiddle steps of odd radix by real transforms (rdft/hc2hc-generic.c): mathematics -/

namespace FFTW.Spec
open Finset Complex Real

local notation "cj" => starRingEnd ℂ

/-- multiplication by twiddle factors -/
noncomputable def gTw (fwd : Bool) (r m l : ℕ) (x : ℕ → ℂ) (k : ℕ) : ℂ := (if fwd then ω (r * m) else cj (ω (r * m))) ^ (k * l) * x k

/-- real transforms of the real and of the imaginary parts -/
noncomputable def gCld (kind : RKind) (r : ℕ) (x : ℕ → ℂ) (k : ℕ) : ℂ :=
  ⟨∑ j ∈ range r, rK kind r j k * (x j).re, ∑ j ∈ range r, rK kind r j k * (x j).im⟩

/-- `reorder_dit` without `swapri` -/
def gDit (r : ℕ) (x : ℕ → ℂ) (k : ℕ) : ℂ := if k = 0 then x 0 else ⟨(x k).re - (x (r - k)).im, (x k).im + (x (r - k)).re⟩

/-- `reorder_dif` without `swapri` -/
noncomputable def gDif (r : ℕ) (x : ℕ → ℂ) (k : ℕ) : ℂ :=
  if k = 0 then x 0 else ⟨1 / 2 * (x k).re + 1 / 2 * (x (r - k)).im, 1 / 2 * (x k).im - 1 / 2 * (x (r - k)).re⟩

/-- `swapri` -/
def gSwap (r : ℕ) (x : ℕ → ℂ) (k : ℕ) : ℂ := ⟨(x k).re, (x (r - 1 - k)).im⟩

/-- the spectrum of a complex sequence from the transforms of its parts -/
theorem gDit_cld (r : ℕ) (hr : r % 2 = 1) (x : ℕ → ℂ) {k : ℕ} (hk : k < r) :
    gDit r (gCld .R2HC00 r x) k =
      let X := ∑ j ∈ range r, ω r ^ (j * k) * x j
      if 2 * k < r then X else ⟨-X.im, X.re⟩ := by
  have hA : ∀ y : ℕ → ℝ, ∀ q < r, ∑ j ∈ range r, ω r ^ (j * q) * (y j : ℂ) = unpackHc r (fun p => ∑ j ∈ range r, rK .R2HC00 r j p * y j) q := by
    intro y q hq
    rw [unpack_congr (w := packHc r fun q => ∑ j ∈ range r, ω r ^ (j * q) * (y j : ℂ)) (fun p hp => r2hc_pack r y hp) hq, unpack_pack (dft_zero _ _) (fun q _ hq => dft_herm _ _ hq.le) hq]
  have hX : ∑ j ∈ range r, ω r ^ (j * k) * x j = ∑ j ∈ range r, ω r ^ (j * k) * ((x j).re : ℂ) + I * ∑ j ∈ range r, ω r ^ (j * k) * ((x j).im : ℂ) := by
    rw [mul_sum, ← sum_add_distrib]
    refine sum_congr rfl fun j _ => ?_
    conv_lhs => rw [← re_add_im (x j)]
    ring
  dsimp only
  rw [hX, hA (fun j => (x j).re) k hk, hA (fun j => (x j).im) k hk]
  unfold gDit unpackHc
  by_cases h0 : k = 0
  · subst h0
    simp only [true_or, if_true]
    rw [if_pos (by omega)]
    apply Complex.ext <;> simp [gCld]
  · have h3 : ¬ (k = 0 ∨ 2 * k = r) := by omega
    rw [if_neg h0]
    simp only [if_neg h3]
    by_cases h2 : 2 * k < r
    · simp only [if_pos h2]
      apply Complex.ext <;> simp [gCld] <;> ring
    · simp only [if_neg h2]
      apply Complex.ext <;> simp [gCld] <;> ring

/-- decimation in time -/
theorem hcColumn_dit (r m l : ℕ) (hr : r % 2 = 1) (hm : m ≠ 0) (x : ℕ → ℂ) {k : ℕ} (hk : k < r) :
    gSwap r (gDit r (gCld .R2HC00 r (gTw true r m l x))) k = hcColumn true r m l x k := by
  have hX : ∀ t, ∑ j ∈ range r, ω (r * m) ^ (j * (t * m + l)) * x j = ∑ j ∈ range r, ω r ^ (j * t) * gTw true r m l x j := by
    intro t
    refine sum_congr rfl fun j _ => ?_
    simp only [gTw, if_true]
    rw [← mul_assoc]
    congr 1
    rw [show j * (t * m + l) = m * (j * t) + j * l by ring, pow_add, mul_comm r m, ω_mul_pow m r _ hm]
  simp only [hcColumn, if_true, hX]
  unfold gSwap
  rw [gDit_cld r hr _ hk, gDit_cld r hr _ (show r - 1 - k < r by omega)]
  dsimp only
  congr 1
  · split <;> rfl
  · split <;> rfl

theorem herm_real (r k : ℕ) (u : ℕ → ℝ) : (∑ q ∈ range r, cj (ω r) ^ (q * k) * unpackHc r u q).im = 0 := by
  have := hcRow_zero r 1 k one_ne_zero u
  unfold hcRow at this
  simp only [zero_add, mul_one] at this
  rw [← this]
  congr 1
  exact sum_congr rfl fun q _ => by rw [mul_comm q k]

theorem gCld_hc2r (r : ℕ) (x : ℕ → ℂ) (k : ℕ) :
    gCld .HC2R00 r x k = ∑ q ∈ range r, cj (ω r) ^ (q * k) * (unpackHc r (fun j => (x j).re) q + I * unpackHc r (fun j => (x j).im) q) := by
  have h1 := hc2r_unpack r (fun j => (x j).re) k
  have h2 := hc2r_unpack r (fun j => (x j).im) k
  have i1 := herm_real r k (fun j => (x j).re)
  have i2 := herm_real r k (fun j => (x j).im)
  have e : ∑ q ∈ range r, cj (ω r) ^ (q * k) * (unpackHc r (fun j => (x j).re) q + I * unpackHc r (fun j => (x j).im) q) =
      ∑ q ∈ range r, cj (ω r) ^ (q * k) * unpackHc r (fun j => (x j).re) q + I * ∑ q ∈ range r, cj (ω r) ^ (q * k) * unpackHc r (fun j => (x j).im) q := by
    rw [mul_sum, ← sum_add_distrib]
    exact sum_congr rfl fun q _ => by ring
  rw [e]
  unfold gCld
  rw [h1, h2]
  apply Complex.ext
  · simp only [add_re, mul_re, I_re, I_im, i2]; simp
  · simp only [add_im, mul_im, I_re, I_im, i1]; simp

/-- decimation in frequency -/
theorem hcColumn_dif (r m l : ℕ) (hr : r % 2 = 1) (hm : m ≠ 0) (x : ℕ → ℂ) (k : ℕ) :
    gTw false r m l (gCld .HC2R00 r (gDif r (gSwap r x))) k = hcColumn false r m l x k := by
  simp only [gTw, hcColumn, Bool.false_eq_true, if_false]
  rw [gCld_hc2r, mul_sum]
  refine sum_congr rfl fun t ht => ?_
  have ht := mem_range.1 ht
  rw [← mul_assoc]
  congr 1
  · rw [show k * (t * m + l) = k * l + m * (t * k) by ring, pow_add]
    congr 1
    rw [← map_pow, ← map_pow, mul_comm r m, ω_mul_pow m r _ hm]
  · unfold unpackHc
    by_cases h0 : t = 0
    · subst h0
      simp only [true_or, if_true]
      rw [if_pos (by omega)]
      apply Complex.ext <;> simp [gDif, gSwap]
    · have h3 : ¬ (t = 0 ∨ 2 * t = r) := by omega
      simp only [if_neg h3]
      have e1 : r - t ≠ 0 := by omega
      have e2 : r - (r - t) = t := by omega
      by_cases h2 : 2 * t < r
      · simp only [if_pos h2]
        apply Complex.ext <;> simp [gDif, gSwap, h0, e1, e2] <;> ring
      · simp only [if_neg h2]
        apply Complex.ext <;> simp [gDif, gSwap, h0, e1, e2] <;> ring

end FFTW.Spec
