import Verif.Spec.Offsets
import Verif.Model.Tensor
import Mathlib.Analysis.SpecialFunctions.Complex.Log
import Mathlib.RingTheory.RootsOfUnity.Complex

/-!
# The discrete Fourier transform

`ω n = exp(-2πi/n)` (FFTW's forward sign is `-1`).  A multi-dimensional DFT is described by FFTW's dimension triples
`(n, is, os)`; `dftSum dk x` is the DFT output at index vector `k`, where `dk` pairs each dimension with
its component of `k` and the input element with index vector `j` is `x (∑ j_d * is_d)`:

  `X[k] = ∑_{j_1 < n_1} ω_{n_1}^(j_1 k_1) ∑_{j_2 < n_2} ω_{n_2}^(j_2 k_2) ⋯ x[j]`
-/

namespace FFTW.Spec
open FFTW.Tensor

/-- primitive root of unity with FFTW's forward sign -/
noncomputable def ω (n : ℕ) : ℂ := Complex.exp (-(2 * Real.pi * Complex.I) / n)

/-- the multidimensional DFT, see the header -/
noncomputable def dftSum : List (Dim × ℕ) → (ℤ → ℂ) → ℂ
  | [], x => x 0
  | (d, k) :: rest, x => ∑ j ∈ Finset.range d.n, ω d.n ^ (j * k) * dftSum rest fun o => x (j * d.is + o)

/-- `dk` is a legal output index vector for the dimensions `sz` -/
def IsIdx (sz : List Dim) (dk : List (Dim × ℕ)) : Prop := dk.map Prod.fst = sz ∧ ∀ e ∈ dk, e.2 < e.1.n

/-- output offset of an index vector -/
def outOff (dk : List (Dim × ℕ)) : ℤ := (dk.map fun e => (e.2 : ℤ) * e.1.os).sum

/-- the (input offset, output offset) pairs of a batch ("vector") tensor; rank `-∞` describes no transform at all -/
def pairs : Tensor → Multiset (ℤ × ℤ)
  | none => 0
  | some l => offs (l.map fun d => (d.n, (d.is, d.os)))

/-- input offsets -/
def ins : Tensor → Multiset ℤ
  | none => 0
  | some l => offs (l.map fun d => (d.n, d.is))
/-- output offsets -/
def outs : Tensor → Multiset ℤ
  | none => 0
  | some l => offs (l.map fun d => (d.n, d.os))

end FFTW.Spec
