import Verif.Spec.ApiR2c

/-!
# Fortran arrays

"Fortran stores arrays in column-major order": `A(i₁, …, i_d)` of an array declared `A(e₁, …, e_d)` is next to `A(i₁ + 1, i₂, …, i_d)`.  Index vectors and extents are written in Fortran's order here, indices from 0.
-/

namespace FFTW.Spec

/-- position of the element with index vector `j` in a Fortran array with extents `e`: the first index varies fastest -/
def colMajor : List ℤ → List ℕ → ℤ
  | e :: es, j :: js => j + e * colMajor es js
  | _, _ => 0

/-- `howmany` Fortran arrays `idist` (`odist`) apart, elements `istride` (`ostride`) apart in column-major order of an array with extents `inembed` (`onembed`) -/
def fBatch (n : List ℕ) (howmany : ℕ) (inembed : List ℤ) (istride idist : ℤ) (onembed : List ℤ) (ostride odist : ℤ) : Batch where
  n := n
  v := [howmany]
  inp b j := b.headD 0 * idist + istride * colMajor inembed j
  out b k := b.headD 0 * odist + ostride * colMajor onembed k

/-- the same for transforms between real and complex arrays: the *first* dimension of the complex array is halved.  `m` is the extent of the first dimension of the real data, `n` are the others. -/
def fRBatch (m : ℕ) (n : List ℕ) (howmany : ℕ) (rembed : List ℤ) (rstride rdist : ℤ) (cembed : List ℤ) (cstride cdist : ℤ) : RBatch where
  n := n
  m := m
  v := [howmany]
  real b j i := b.headD 0 * rdist + rstride * colMajor rembed (i :: j)
  cplx b k q := b.headD 0 * cdist + cstride * colMajor cembed (q :: k)

/-- the real array: if in place, its first dimension is padded to `2*(m/2+1)` -/
def fRealEmbed (inplace : Bool) (m : ℕ) (n : List ℕ) : List ℤ := (if inplace then 2 * ((m / 2 + 1 : ℕ) : ℤ) else (m : ℤ)) :: n.map fun x : ℕ => (x : ℤ)
/-- the complex array: its first dimension is `m/2+1` -/
def fCplxEmbed (m : ℕ) (n : List ℕ) : List ℤ := ((m / 2 + 1 : ℕ) : ℤ) :: n.map fun x : ℕ => (x : ℤ)

end FFTW.Spec
