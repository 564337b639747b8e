import Verif.Spec.Contract
import Verif.Spec.Kernels

/-!
# The twiddle step of Cooley-Tukey for halfcomplex transforms

An array of `r * m` numbers is seen as `r` rows of `m` numbers, or as one sequence of `n = r * m` numbers.

* Real to halfcomplex: every row holds a halfcomplex sequence of length `m` (the transform of every `r`-th input element); afterwards the
  whole array holds the halfcomplex transform of length `n`.
* Halfcomplex to real: the whole array holds a halfcomplex sequence of length `n`; afterwards row `k` holds the halfcomplex sequence whose
  transform of length `m` is every `r`-th output element, beginning with the `k`-th.
-/

namespace FFTW.Spec
open Tensor Complex

/-- frequency `q` of the Hermitian spectrum that a halfcomplex array of length `n` stands for -/
noncomputable def unpackHc (n : ℕ) (u : ℕ → ℝ) (q : ℕ) : ℂ :=
  if q = 0 ∨ 2 * q = n then ⟨u q, 0⟩ else if 2 * q < n then ⟨u q, u (n - q)⟩ else ⟨u (n - q), - u q⟩

/-- element `p` of the halfcomplex array of length `n` that stands for the spectrum `X` -/
noncomputable def packHc (n : ℕ) (X : ℕ → ℂ) (p : ℕ) : ℝ := if 2 * p ≤ n then (X p).re else (X (n - p)).im

/-- the new element `p` of the array, given the old array `u` -/
noncomputable def hcStep (fwd : Bool) (r m : ℕ) (u : ℕ → ℝ) (p : ℕ) : ℝ :=
  if fwd then
    packHc (r * m) (fun q => ∑ k ∈ Finset.range r, ω (r * m) ^ (k * q) * unpackHc m (fun j => u (k * m + j)) (q % m)) p
  else
    packHc m (fun j => ∑ t ∈ Finset.range r, (starRingEnd ℂ) (ω (r * m)) ^ ((p / m) * (j + t * m)) * unpackHc (r * m) u (j + t * m)) (p % m)

/-- The same for one column `l` with `0 < l` and `2 l < m`, as `r` complex numbers: `x k` has element `k m + l` as its real part and element
`k m + (m - l)` as its imaginary part. -/
noncomputable def hcColumn (fwd : Bool) (r m l : ℕ) (x : ℕ → ℂ) (k : ℕ) : ℂ :=
  if fwd then
    let X : ℕ → ℂ := fun t => ∑ j ∈ Finset.range r, ω (r * m) ^ (j * (t * m + l)) * x j
    ⟨if 2 * k < r then (X k).re else -(X k).im, if 2 * (r - 1 - k) < r then (X (r - 1 - k)).im else (X (r - 1 - k)).re⟩
  else
    ∑ t ∈ Finset.range r, (starRingEnd ℂ) (ω (r * m)) ^ (k * (t * m + l)) *
      (if 2 * t < r then ⟨(x t).re, (x (r - 1 - t)).im⟩ else ⟨(x (r - 1 - t)).im, -(x t).re⟩)

/-- the column an element belongs to: columns `l` and `m - l` are transformed together -/
def hcCol (m p : ℕ) : ℕ := min (p % m) (m - p % m)

end FFTW.Spec

namespace FFTW
open Tensor Spec

/-- arguments of `hc2hc_mkinferior`, rdft/hc2hc.h:25-28 (`mb`, `mc`: `mstart`, `mcount`) -/
structure HcP where
  r : ℕ
  m : ℕ
  s : ℤ
  v : ℕ
  vs : ℤ
  mb : ℕ
  mc : ℕ

/-- where element `p` of vector `i` is -/
def HcP.at (t : HcP) (P : Ptr) (i p : ℕ) : Ptr := P + ((p : ℤ) * t.s + (i : ℤ) * t.vs)

namespace Spec

/-- contract of a halfcomplex twiddle step: `v` arrays, columns `mb .. mb+mc-1` are transformed in place, all else is left alone -/
def HcOK (fwd : Bool) (t : HcP) (f : Ptr → State → State) : Prop :=
  (offs [(t.r * t.m, t.s), (t.v, t.vs)]).Nodup → ∀ (P : Ptr) (st : State), P.blk < st.next →
    Frame st (f P st) (fun a => ∃ i < t.v, ∃ p < t.r * t.m, t.mb ≤ hcCol t.m p ∧ hcCol t.m p < t.mb + t.mc ∧ a = t.at P i p) ∧
    ∀ i < t.v, ∀ p < t.r * t.m, t.mb ≤ hcCol t.m p → hcCol t.m p < t.mb + t.mc →
      (f P st).mem (t.at P i p) = hcStep fwd t.r t.m (fun p => st.mem (t.at P i p)) p

end Spec
end FFTW
