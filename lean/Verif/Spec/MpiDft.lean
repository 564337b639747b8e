import Verif.Spec.MpiSound

/-!
# What a distributed complex DFT computes, in terms of complex numbers
-/

namespace FFTW.Mpi
open Tensor Spec

/-- the complex number with index `v` of the `vn`-tuple at a place: `pl.1` is the rank of a process, `pl.2` the position of the tuple in its array `P` -/
noncomputable def cplx (vn : ℕ) (comm : Comm) (P : ℕ → Ptr) (st : Dist) (pl : ℕ × ℕ) (v : ℕ) : ℂ :=
  let q := P (comm.at pl.1) + (((pl.2 * vn + v) * 2 : ℕ) : ℤ)
  ⟨(st (comm.at pl.1)).mem q, (st (comm.at pl.1)).mem (q + (1 : ℤ))⟩

/-- the multidimensional DFT of `x` at `k`: `Σ_j x_j exp(∓2πi Σ j_t k_t / n_t)`; `-` is forward, `+` backward -/
noncomputable def mdft (bwd : Bool) : List ℕ → List ℕ → (List ℕ → ℂ) → ℂ
  | n :: ns, k :: ks, x =>
    ∑ j ∈ Finset.range n, Complex.exp ((if bwd then 1 else -1) * (2 * Real.pi * Complex.I) * (j * k) / n) * mdft bwd ns ks fun js => x (j :: js)
  | _, _, x => x []

end FFTW.Mpi
