import Verif.Model.MpiPlanner
import Verif.Model.MpiApiDft

/-!
# Planning by the MPI user interface: `mpi/api.c` together with `X(mkapiplan)`
-/

namespace FFTW.Mpi
open Tensor Planner
open MapFlags (U32)

/-- `MPI_FLAGS`, mpi/api.c:30: the flags of the MPI interface are the top bits of the user's flags, mpi/fftw3-mpi.h:212-215 -/
def mpiFlags (flags : U32) : MFlags :=
  ⟨flags.getLsbD 27, flags.getLsbD 28, flags.getLsbD 29, flags.getLsbD 30, flags.getLsbD 31⟩

variable [CLib]

/-- `XM(plan_guru_dft)`, mpi/api.c:559-590, called by all processes of `comm`.  (`XM(init)` has been called before: `E.reg`.  The value of `sign` that is cached is not modelled.) -/
noncomputable def mpiPlanGuruDft (E : MPlanner.MEnv) (n : ℕ) (dims : List ADim) (howmany : ℤ) (I O : ℕ → Ptr) (comm : Comm) (bwd : Bool) (flags : U32) (space : ℕ → ℕ) (sts : MPlanner.PSts) :
    MPlanner.MRes (Option MPlan × MPlanner.PSts) :=
  match planGuruDft dims howmany I O comm bwd (mpiFlags flags) space with
  | none => .ok (none, sts)
  | some p => MPlanner.mkapiplan E n flags (.dft p) sts

/-- `XM(plan_many_transpose)`, mpi/api.c:521-545, called by all processes of `comm` -/
noncomputable def mpiPlanManyTranspose (E : MPlanner.MEnv) (n : ℕ) (nx ny howmany xblock yblock : ℤ) (inp out : ℕ → Ptr) (comm : Comm) (flags : U32) (space : ℕ → ℕ) (sts : MPlanner.PSts) :
    MPlanner.MRes (Option MPlan × MPlanner.PSts) :=
  match planManyTranspose nx ny howmany xblock yblock inp out comm (mpiFlags flags) space with
  | none => .ok (none, sts)
  | some p => MPlanner.mkapiplan E n flags (.transpose p) sts

/-- `XM(plan_guru_r2r)`, mpi/api.c:649-684, called by all processes of `comm` -/
noncomputable def mpiPlanGuruR2r (E : MPlanner.MEnv) (n : ℕ) (dims : List ADim) (howmany : ℤ) (I O : ℕ → Ptr) (comm : Comm) (kinds : List Spec.R2rKind) (flags : U32) (space : ℕ → ℕ)
    (sts : MPlanner.PSts) : MPlanner.MRes (Option MPlan × MPlanner.PSts) :=
  match planGuruR2r dims howmany I O comm kinds (mpiFlags flags) space with
  | none => .ok (none, sts)
  | some p => MPlanner.mkapiplan E n flags (.rdft p) sts

end FFTW.Mpi
