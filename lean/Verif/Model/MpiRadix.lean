import Verif.Model.MpiRecurse

/-!
# `mpi/choose-radix.c`
-/

namespace FFTW.Mpi

/-- `r` before the exchange of `r` and `m`, mpi/choose-radix.c:62-68 -/
def radixOf (n npes : ℕ) : ℕ :=
  if n % npes = 0 ∧ n / npes ≥ npes then n / npes else divisorFrom n (n + 1) ((Primes.isqrt n).getD 0).toNat

/-- `XM(choose_radix)`, mpi/choose-radix.c:50-83: `r` and `m` with `r * m = n`, or `none` when the result is 0 (`radixOf n npes = 0` stands for a loop that does not end; C57_radix shows that it does).  `bwd`: `sign != FFT_SIGN`.  All of `rblock` are
`default_block(r, n_pes)`, all of `mblock` are `default_block(m, n_pes)`. -/
def chooseRadix (n npes : ℕ) (bwd : Bool) : Option (ℕ × ℕ) :=
  let r := radixOf n npes
  if r = 0 ∨ r = 1 ∨ r = n then none
  else if bwd then some (n / r, r)
  else some (r, n / r)

end FFTW.Mpi
