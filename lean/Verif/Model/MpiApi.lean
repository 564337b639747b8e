import Verif.Model.MpiTranspose
import Verif.Model.MpiRecurse

/-!
# The MPI user interface: `mpi/api.c`
-/

namespace FFTW.Mpi
open Tensor
variable [CLib]

/-- the block size meant by the user: `FFTW_MPI_DEFAULT_BLOCK` is 0 (mpi/fftw3-mpi.h:48) -/
def blockOr (n b : ℤ) (npes : ℕ) : ℕ := if b = 0 then defaultBlock n.toNat npes else b.toNat

/-- `XM(plan_many_transpose)`, mpi/api.c:521-545, up to `X(mkapiplan)`: the problem to be planned, or `none` if the arguments are refused.
`space` as in `TransP`. -/
def planManyTranspose (nx ny howmany xblock yblock : ℤ) (inp out : ℕ → Ptr) (comm : Comm) (flags : MFlags) (space : ℕ → ℕ) : Option TransP :=
  if howmany < 0 ∨ xblock < 0 ∨ yblock < 0 ∨ nx ≤ 0 ∨ ny ≤ 0 then none
  else
    let npes := comm.length
    let xblock := blockOr nx xblock npes
    let yblock := blockOr ny yblock npes
    if npes < numBlocks nx.toNat xblock ∨ npes < numBlocks ny.toNat yblock then none
    else some (mkTrans nx.toNat ny.toNat howmany.toNat inp out xblock yblock comm flags space)

/-- the transposition solvers of mpi/conf.c:31-33, with what is in uninitialised memory (`junk`), and the size heuristics of
transpose-recurse.c as parameters -/
inductive Transposer (junk : TransP → ℕ → List ℤ) : MSolver → Prop
  | pairwise (preserve : Bool) : Transposer junk (transposePairwise junk preserve)
  | alltoall (copyIn : Bool) : Transposer junk (transposeAlltoall copyIn)
  | recurse (rx : Radix) (preserve : Bool) (heur : TransP → Flags → Bool) : Transposer junk (transposeRecurse rx preserve heur)

end FFTW.Mpi
