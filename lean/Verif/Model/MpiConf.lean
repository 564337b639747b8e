import Verif.Model.MpiApi
import Verif.Model.MpiRank1
import Verif.Model.MpiRdft

/-!
# `mpi/conf.c`: the registered solvers of complex DFTs, real-to-real transforms and transpositions
-/

namespace FFTW.Mpi
open Tensor
variable [CLib]

/-- the solvers `s` of mpi/conf.c:28-41 for transpositions, complex DFTs and real-to-real transforms, with the registration functions mpi/dft-rank-geq2.c:183-188, dft-rank-geq2-transposed.c:216-221,
dft-serial.c:127-130, dft-rank1-bigvec.c:204-211, dft-rank1.c:344-352, rdft-rank-geq2.c:174-179, rdft-rank-geq2-transposed.c:206-211,
rdft-serial.c:121-124, rdft-rank1-bigvec.c:198-205.  `ub`: see `serialMk` -/
inductive MpiSolver (junk : TransP → ℕ → List ℤ) (ub : MDftP → MPlan) (cexp : ℕ → ℤ → ℝ × ℝ) : MSolver → Prop
  | transpose {s : MSolver} (h : Transposer junk s) : MpiSolver junk ub cexp s
  | geq2 (preserve : Bool) : MpiSolver junk ub cexp (dftRankGeq2 preserve)
  | geq2Transposed (preserve : Bool) : MpiSolver junk ub cexp (dftRankGeq2Transposed preserve)
  | serial : MpiSolver junk ub cexp (dftSerial ub)
  | bigvec (r : Rearrange) (preserve : Bool) : MpiSolver junk ub cexp (dftRank1Bigvec r preserve)
  | rank1 (first preserve : Bool) : MpiSolver junk ub cexp (dftRank1 cexp first preserve)
  | rdftGeq2 (preserve : Bool) : MpiSolver junk ub cexp (Rdft.rdftRankGeq2 preserve)
  | rdftGeq2Transposed (preserve : Bool) : MpiSolver junk ub cexp (Rdft.rdftRankGeq2Transposed preserve)
  | rdftSerial : MpiSolver junk ub cexp Rdft.rdftSerial
  | rdftBigvec (r : Rearrange) (preserve : Bool) : MpiSolver junk ub cexp (Rdft.rdftRank1Bigvec r preserve)

end FFTW.Mpi
