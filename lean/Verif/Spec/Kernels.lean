import Verif.Spec.Contract
import Mathlib.Analysis.SpecialFunctions.Trigonometric.Basic

/-!
# The transform kernels, from the FFTW manual ("What FFTW Really Computes")
-/

namespace FFTW

/-- `rdft_kind`, rdft/codelet-rdft.h:39-45 -/
inductive RKind
  | R2HC00 | R2HC01 | R2HC10 | R2HC11
  | HC2R00 | HC2R01 | HC2R10 | HC2R11
  | DHT
  | REDFT00 | REDFT01 | REDFT10 | REDFT11
  | RODFT00 | RODFT01 | RODFT10 | RODFT11
  deriving DecidableEq

namespace Spec
open Real

/-- forward complex DFT: coefficient of input `j` in output `k` -/
noncomputable def dftK : Unit → ℕ → ℕ → ℕ → ℂ := fun _ n j k => ω n ^ (j * k)

/-- r2hc with input shift `a/2` and output shift `b/2`: output slot `p` holds the real part of frequency `p` in the first
half and the imaginary part of frequency `n - b - p` in the second half -/
noncomputable def r2hcK (a b n j p : ℕ) : ℝ :=
  if 2 * p + b ≤ n then cos (2 * π * (j + a / 2) * (p + b / 2) / n)
  else - sin (2 * π * (j + a / 2) * (((n - b - p : ℕ) : ℝ) + b / 2) / n)

/-- hc2r with input shift `a/2` and output shift `b/2`: the sum over the whole Hermitian spectrum -/
noncomputable def hc2rK (a b n p k : ℕ) : ℝ :=
  if 2 * p + a ≤ n then
    (if 2 * p + a = 0 ∨ 2 * p + a = n then 1 else 2) * cos (2 * π * (p + a / 2) * (k + b / 2) / n)
  else - (2 * sin (2 * π * (((n - a - p : ℕ) : ℝ) + a / 2) * (k + b / 2) / n))

/-- all real-to-real transforms: coefficient of input `j` in output `k` -/
noncomputable def rK : RKind → ℕ → ℕ → ℕ → ℝ
  | .R2HC00 => r2hcK 0 0
  | .R2HC01 => r2hcK 0 1
  | .R2HC10 => r2hcK 1 0
  | .R2HC11 => r2hcK 1 1
  | .HC2R00 => hc2rK 0 0
  | .HC2R01 => hc2rK 0 1
  | .HC2R10 => hc2rK 1 0
  | .HC2R11 => hc2rK 1 1
  | .DHT => fun n j k => cos (2 * π * j * k / n) + sin (2 * π * j * k / n)
  | .REDFT00 => fun n j k => if j = 0 then 1 else if j + 1 = n then (-1) ^ k else 2 * cos (π * j * k / ((n : ℝ) - 1))
  | .REDFT10 => fun n j k => 2 * cos (π * (j + 1 / 2) * k / n)
  | .REDFT01 => fun n j k => if j = 0 then 1 else 2 * cos (π * j * (k + 1 / 2) / n)
  | .REDFT11 => fun n j k => 2 * cos (π * (j + 1 / 2) * (k + 1 / 2) / n)
  | .RODFT00 => fun n j k => 2 * sin (π * (j + 1) * (k + 1) / (n + 1))
  | .RODFT10 => fun n j k => 2 * sin (π * (j + 1 / 2) * (k + 1) / n)
  | .RODFT01 => fun n j k => if j + 1 = n then (-1) ^ k else 2 * sin (π * (j + 1) * (k + 1 / 2) / n)
  | .RODFT11 => fun n j k => 2 * sin (π * (j + 1 / 2) * (k + 1 / 2) / n)

end Spec
end FFTW
