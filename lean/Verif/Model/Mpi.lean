import Verif.Model.Problem
import Verif.Model.MpiExchange

/-!
# Distributed memory, MPI problems and the interface between MPI solvers and the planner

Every process has its own memory.  All processes run the same planner; the hooks of mpi/api.c:33-117 (cost maximised over the
communicator, wisdom accepted only if equal everywhere) make them choose the same solver for an MPI problem (Model/MpiPlanner, C59), so that a
solver's `mkplan` is one program run by all processes together.  Serial subproblems are planned by each process on its own, and may get
different plans.  Processes are numbered by their rank in `MPI_COMM_WORLD`.  `int` overflow of MPI counts is not modelled.
-/

namespace FFTW.Mpi
open Tensor

/-- the memories of all processes -/
abbrev Dist := ℕ → State

/-- an `MPI_Comm`: its processes, in order of rank -/
abbrev Comm := List ℕ

/-- the process of rank `r` -/
def Comm.at (c : Comm) (r : ℕ) : ℕ := c.getD r 0

/-- `MPI_Comm_split(comm, color, key = rank)`: the processes of colour `c` -/
def Comm.split (c : Comm) (color : ℕ → ℕ) (x : ℕ) : Comm := ((List.range c.length).filter fun me => color me = x).map c.at

/-- every process of `c` runs `f` of its rank -/
def Comm.run (c : Comm) (f : ℕ → State → State) (st : Dist) : Dist := fun w => if w ∈ c then f (c.idxOf w) (st w) else st w

/-- flag bits of MPI problems, mpi/ifftw-mpi.h:33-37 -/
structure MFlags where
  scrambledIn : Bool := false
  scrambledOut : Bool := false
  transposedIn : Bool := false
  transposedOut : Bool := false
  bigvecOnly : Bool := false
  deriving DecidableEq

/-- `ONLY_TRANSPOSEDP`, mpi/ifftw-mpi.h:40 -/
def MFlags.onlyTransposed (f : MFlags) : Bool := !f.scrambledIn && !f.scrambledOut && !f.bigvecOnly
/-- `ONLY_SCRAMBLEDP`, mpi/ifftw-mpi.h:39 -/
def MFlags.onlyScrambled (f : MFlags) : Bool := !f.transposedIn && !f.transposedOut && !f.bigvecOnly

/-- `XM(block)`, mpi/block.c:46-50 -/
def block (n b w : ℕ) : ℕ := if n ≤ w * b then 0 else if n - w * b > b then b else n - w * b
/-- `XM(num_blocks)`, mpi/block.c:23-26 -/
def numBlocks (n b : ℕ) : ℕ := (n + b - 1) / b
/-- `XM(default_block)`, mpi/block.c:39-42 -/
def defaultBlock (n npes : ℕ) : ℕ := (n + npes - 1) / npes

/-- `problem_mpi_transpose`, mpi/mpi-transpose.h:26-37.  Pointers are those of each process.  `space` is not in the C structure: how many `R`s the
arrays of each process have (what `fftw_mpi_local_size_*` made the user allocate). -/
structure TransP where
  nx : ℕ
  ny : ℕ
  vn : ℕ
  I : ℕ → Ptr
  O : ℕ → Ptr
  block : ℕ
  tblock : ℕ
  comm : Comm
  flags : MFlags
  space : ℕ → ℕ

/-- `XM(mkproblem_transpose)`, mpi/transpose-problem.c:88-127 -/
def mkTrans (nx ny vn : ℕ) (I O : ℕ → Ptr) (block tblock : ℕ) (comm : Comm) (flags : MFlags) (space : ℕ → ℕ) : TransP :=
  let block := if block > nx then nx else block
  let tblock := if tblock > ny then ny else tblock
  { nx, ny, vn, I, O, block, tblock, comm, space,
    flags := { flags with transposedIn := flags.transposedIn || decide (block = 1), transposedOut := flags.transposedOut || decide (tblock = 1) } }

/-- a dimension of a `dtensor`, mpi/ifftw-mpi.h:60-64: size and block sizes of the input and of the output -/
structure DDim where
  n : ℕ
  ib : ℕ
  ob : ℕ
  deriving DecidableEq

/-- `problem_mpi_dft`, mpi/mpi-dft.h:25-36; `sign` is `+1` if `bwd` -/
structure MDftP where
  sz : List DDim
  vn : ℕ
  I : ℕ → Ptr
  O : ℕ → Ptr
  comm : Comm
  bwd : Bool
  flags : MFlags
  space : ℕ → ℕ

/-- `problem_mpi_rdft`, mpi/mpi-rdft.h:25-41; `kind` has an element for each dimension -/
structure MRdftP where
  sz : List DDim
  vn : ℕ
  I : ℕ → Ptr
  O : ℕ → Ptr
  comm : Comm
  kind : List RKind
  flags : MFlags
  space : ℕ → ℕ

/-- MPI problems -/
inductive MProblem
  | transpose (p : TransP)
  | dft (p : MDftP)
  | rdft (p : MRdftP)

/-- `apply` of an awake MPI plan (all kinds are `plan_rdft`s, mpi/mpi-transpose.h, mpi/mpi-dft.h), run by all processes together -/
abbrev MPlan := (ℕ → Ptr) → (ℕ → Ptr) → Dist → Dist

/-- The `mkplan` of an MPI solver.  `loc`: each process (rank `me`) plans its own serial problem `p me`, if it has one, and `XM(any_true)` makes
all of them give up if one of them got no plan.  `grp`: the processes plan MPI problems together, one for each group `c` of processes (one group
only, except in transpose-recurse.c), and again all give up if one group gets no plan. -/
inductive MMk (α : Type)
  | ret (a : α)
  | loc (n : ℕ) (p : ℕ → Option Problem) (m : FMod) (k : Option (ℕ → Plan) → MMk α)
  | grp (n : ℕ) (p : ℕ → Option MProblem) (m : FMod) (k : Option (ℕ → MPlan) → MMk α)

/-- `cld = X(mkplan_f_d)(plnr, p, m); if (XM(any_true)(!cld, comm)) goto nada;` -/
def MMk.needLoc {α : Type} (n : ℕ) (p : ℕ → Option Problem) (m : FMod) (k : (ℕ → Plan) → MMk (Option α)) : MMk (Option α) :=
  .loc n p m fun r => match r with
    | none => .ret none
    | some c => k c

/-- the same for MPI problems of groups -/
def MMk.needGrp {α : Type} (n : ℕ) (p : ℕ → Option MProblem) (m : FMod) (k : (ℕ → MPlan) → MMk (Option α)) : MMk (Option α) :=
  .grp n p m fun r => match r with
    | none => .ret none
    | some c => k c

/-- the same for one MPI problem -/
def MMk.need {α : Type} (p : MProblem) (m : FMod) (k : MPlan → MMk (Option α)) : MMk (Option α) :=
  .needGrp 1 (fun _ => some p) m fun c => k (c 0)

/-- an MPI solver -/
structure MSolver where
  mkplan : MProblem → Flags → MMk (Option MPlan)

/-- a solver of transpositions -/
def transSolver (mk : TransP → Flags → MMk (Option MPlan)) : MSolver :=
  ⟨fun p fl => match p with | .transpose p => mk p fl | _ => .ret none⟩
/-- a solver of DFTs -/
def dftSolver (mk : MDftP → Flags → MMk (Option MPlan)) : MSolver :=
  ⟨fun p fl => match p with | .dft p => mk p fl | _ => .ret none⟩
/-- a solver of real-to-real transforms -/
def rdftSolver (mk : MRdftP → Flags → MMk (Option MPlan)) : MSolver :=
  ⟨fun p fl => match p with | .rdft p => mk p fl | _ => .ret none⟩

/-- `p->I == p->O`, as seen by the process of rank 0 (kosher problems look the same to all processes) -/
def TransP.inpl (p : TransP) : Prop := p.I (p.comm.at 0) = p.O (p.comm.at 0)
instance (p : TransP) : Decidable p.inpl := by unfold TransP.inpl; infer_instance
/-- the same -/
def MDftP.inpl (p : MDftP) : Prop := p.I (p.comm.at 0) = p.O (p.comm.at 0)
instance (p : MDftP) : Decidable p.inpl := by unfold MDftP.inpl; infer_instance
/-- the same -/
def MRdftP.inpl (p : MRdftP) : Prop := p.I (p.comm.at 0) = p.O (p.comm.at 0)
instance (p : MRdftP) : Decidable p.inpl := by unfold MRdftP.inpl; infer_instance

end FFTW.Mpi
