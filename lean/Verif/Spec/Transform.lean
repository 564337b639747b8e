import Verif.Spec.Dft

/-!
# Strided separable transforms

The common shape of FFTW's complex DFTs (`V = ℂ`) and real-to-real transforms (`V = ℝ`): dimension `d` has a kernel
`K t n j k` (coefficient of input `j` in output `k`), `t` being the dimension's kind, and
`X[k] = ∑_{j_1} K t_1 n_1 j_1 k_1 ∑_{j_2} ⋯ x[j]`.
-/

namespace FFTW.Spec
open FFTW.Tensor

variable {V τ : Type} [CommRing V]

/-- the transform at output index vector `k` -/
def gSum (K : τ → ℕ → ℕ → ℕ → V) : List ((Dim × τ) × ℕ) → (ℤ → V) → V
  | [], x => x 0
  | ((d, t), k) :: rest, x => ∑ j ∈ Finset.range d.n, K t d.n j k * gSum K rest fun o => x (j * d.is + o)

/-- `dk` is a legal output index vector -/
def GIdx (sz : List (Dim × τ)) (dk : List ((Dim × τ) × ℕ)) : Prop := dk.map Prod.fst = sz ∧ ∀ e ∈ dk, e.2 < e.1.1.n

/-- output offset of an index vector -/
def gOut (dk : List ((Dim × τ) × ℕ)) : ℤ := (dk.map fun e => (e.2 : ℤ) * e.1.1.os).sum

end FFTW.Spec
