import Verif.Spec.Kernels
import Mathlib.Algebra.BigOperators.Intervals

/-!
# The r2r transforms as the manual defines them (doc/reference.texi, "1d Real-even DFTs", "1d Real-odd DFTs", "1d Discrete Hartley Transforms",
"The 1d Real-data DFT")
-/

namespace FFTW.Spec
open Real Finset

/-- output `k` of the transform of `x` of size `n` -/
noncomputable def docR2r (kd : RKind) (n : ℕ) (x : ℕ → ℝ) (k : ℕ) : ℝ :=
  match kd with
  | .REDFT00 => x 0 + (-1) ^ k * x (n - 1) + 2 * ∑ j ∈ Ico 1 (n - 1), x j * cos (π * j * k / ((n : ℝ) - 1))
  | .REDFT10 => 2 * ∑ j ∈ range n, x j * cos (π * (j + 1 / 2) * k / n)
  | .REDFT01 => x 0 + 2 * ∑ j ∈ Ico 1 n, x j * cos (π * j * (k + 1 / 2) / n)
  | .REDFT11 => 2 * ∑ j ∈ range n, x j * cos (π * (j + 1 / 2) * (k + 1 / 2) / n)
  | .RODFT00 => 2 * ∑ j ∈ range n, x j * sin (π * (j + 1) * (k + 1) / (n + 1))
  | .RODFT10 => 2 * ∑ j ∈ range n, x j * sin (π * (j + 1 / 2) * (k + 1) / n)
  | .RODFT01 => (-1) ^ k * x (n - 1) + 2 * ∑ j ∈ range (n - 1), x j * sin (π * (j + 1) * (k + 1 / 2) / n)
  | .RODFT11 => 2 * ∑ j ∈ range n, x j * sin (π * (j + 1 / 2) * (k + 1 / 2) / n)
  | .DHT => ∑ j ∈ range n, x j * (cos (2 * π * j * k / n) + sin (2 * π * j * k / n))
  | _ => ∑ j ∈ range n, rK kd n j k * x j

/-- the kinds defined by a formula of their own above -/
def IsReodft (kd : RKind) : Prop := kd ∈ [RKind.REDFT00, .REDFT01, .REDFT10, .REDFT11, .RODFT00, .RODFT01, .RODFT10, .RODFT11]

/-- the kinds that can be passed to `fftw_plan_r2r` (api/fftw3.h, `enum fftw_r2r_kind_do_not_use_me`) -/
def IsR2r (kd : RKind) : Prop := IsReodft kd ∨ kd = .R2HC00 ∨ kd = .HC2R00 ∨ kd = .DHT

/-- the inverse of each kind, up to a factor (manual, "Real-to-Real Transform Kinds") -/
def invKind : RKind → RKind
  | .R2HC00 => .HC2R00
  | .HC2R00 => .R2HC00
  | .REDFT01 => .REDFT10
  | .REDFT10 => .REDFT01
  | .RODFT01 => .RODFT10
  | .RODFT10 => .RODFT01
  | kd => kd

/-- that factor: the size of the logical DFT (manual, "Real-to-Real Transforms") -/
def logicalN : RKind → ℕ → ℕ
  | .REDFT00, n => 2 * (n - 1)
  | .RODFT00, n => 2 * (n + 1)
  | .R2HC00, n | .HC2R00, n | .DHT, n => n
  | _, n => 2 * n

/-- the complex DFT of real data, manual, "The 1d Discrete Fourier Transform (DFT)" -/
noncomputable def dftR (n : ℕ) (x : ℕ → ℝ) (k : ℕ) : ℂ := ∑ j ∈ range n, (x j : ℂ) * Complex.exp (-(2 * π * Complex.I * j * k / n))

/-- the Hermitian spectrum stored in a halfcomplex array, manual, "The Halfcomplex-format DFT": `r0, r1, …, r(n/2), i((n+1)/2-1), …, i1` -/
noncomputable def hcSpectrum (n : ℕ) (h : ℕ → ℝ) (k : ℕ) : ℂ :=
  if k = 0 ∨ 2 * k = n then h k
  else if 2 * k < n then h k + h (n - k) * Complex.I
  else h (n - k) - h k * Complex.I

end FFTW.Spec
