import Mathlib.Analysis.SpecialFunctions.Trigonometric.Basic

namespace FFTW.Spec

/-- a generator of sines and cosines that is right on the arguments the solvers use: `cexp n m = (cos, sin)(2πm/n)` for
`-n ≤ m < n` (`C15_cexp_exact`: both modes of the trigonometric generator satisfy it, given an exact sine and cosine) -/
def ExactCexp (cexp : ℕ → ℤ → ℝ × ℝ) : Prop :=
  ∀ (n : ℕ) (m : ℤ), 0 < n → -(n : ℤ) ≤ m → m < n →
    cexp n m = (Real.cos (2 * Real.pi * m / n), Real.sin (2 * Real.pi * m / n))

end FFTW.Spec
