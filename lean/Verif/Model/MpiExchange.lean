import Verif.Model.MpiSched
/-!
# `mpi/transpose-pairwise.c` — the in-place pairwise exchange (`transpose_chunks` with `I == O`)

All processes run the same code.  Because `MPI_Sendrecv` is blocking and matched by source and tag, what a process
receives in its `s`-th call is what its partner sent; the joint execution is modelled step by step: at step `s`
every process executes its `s`-th loop iteration, and the model gets stuck (`none`: a deadlock or an MPI error) when the
partner of a process does not address that process at the same step, or when the message is longer than the receive
count.  Integer overflow is not modelled.  `α` is the type of array elements.
-/

namespace FFTW.MpiExchange
open FFTW.MpiSched

/-- `XM(block)`, mpi/block.c:46-50, on unbounded integers -/
def blockZ (n b w : Int) : Int :=
  let d := n - w * b
  if d ≤ 0 then 0 else if d > b then b else d

/-- fields of `problem_mpi_transpose` used here (mpi/mpi-transpose.h): `nx × ny` matrix of `vn`-tuples -/
structure Prob where
  nx : Int
  ny : Int
  vn : Int
  block : Int
  tblock : Int

/-- `XM(num_blocks)`, mpi/block.c:23-26, on unbounded integers -/
def numBlocksZ (n b : Int) : Int := (n + b - 1) / b

/-- `n_pes`, mpi/transpose-pairwise.c:414-415 -/
def nPes (p : Prob) : Nat := (max (numBlocksZ p.nx p.block) (numBlocksZ p.ny p.tblock)).toNat

/-- `sbs[pe]` on process `my`, mpi/transpose-pairwise.c:422-429 -/
def sbs (p : Prob) (my pe : Int) : Int := blockZ p.nx p.block my * blockZ p.ny p.tblock pe * p.vn
/-- `sbo[pe]` on process `my`, mpi/transpose-pairwise.c:430 -/
def sbo (p : Prob) (my pe : Int) : Int := pe * (blockZ p.nx p.block my * p.tblock) * p.vn
/-- `rbs[pe]` on process `my`, mpi/transpose-pairwise.c:431 -/
def rbs (p : Prob) (my pe : Int) : Int := blockZ p.nx p.block pe * blockZ p.ny p.tblock my * p.vn
/-- `rbo[pe]` on process `my`, mpi/transpose-pairwise.c:432 -/
def rbo (p : Prob) (my pe : Int) : Int := pe * (p.block * blockZ p.ny p.tblock my) * p.vn

/-- the search for the process whose schedule must be sorted, mpi/transpose-pairwise.c:424-439;
`none` when the assertion of line 435 fails -/
def sortSearch (p : Prob) : List Nat → Int × Bool → C (Int × Bool)
  | [], st => some st
  | pe :: pes, st =>
    let db := blockZ p.nx p.block pe
    let dbt := blockZ p.ny p.tblock pe
    if db * dbt > 0 ∧ db * p.tblock ≠ p.block * dbt then
      if st.1 = -1 then sortSearch p pes ((pe : Int), decide (db * p.tblock > p.block * dbt)) else none
    else sortSearch p pes st

/-- one iteration of `transpose_chunks` (I == O branch, mpi/transpose-pairwise.c:61-79) on process `w` whose partner is `q`;
`mem` is the memory of all processes before the step -/
def recvStep {α : Type} (p : Prob) (mem : Int → Int → α) (w q : Int) (a : Int) : α :=
  if q = w then
    if rbo p w q ≠ sbo p w q ∧ rbo p w q ≤ a ∧ a < rbo p w q + sbs p w q then mem w (sbo p w q + (a - rbo p w q))   -- memmove
    else mem w a
  else if rbo p w q ≤ a ∧ a < rbo p w q + sbs p q w then mem q (sbo p q w + (a - rbo p w q))                       -- MPI_Sendrecv
  else mem w a

/-- all processes execute their step with partner function `part` -/
def stepAll {α : Type} (p : Prob) (npes : Nat) (part : Nat → Int) (mem : Int → Int → α) : C (Int → Int → α) :=
  if (∀ w : Fin npes, 0 ≤ part w ∧ part w < npes ∧ part (part w).toNat = (w : Int) ∧
        sbs p (part w) w ≤ rbs p w (part w) ∧      -- message fits the receive count
        sbs p w (part w) ≤ sbs p w 0)              -- memcpy into buf[sbs[0]] stays inside
  then some fun w a => if 0 ≤ w ∧ w < npes then recvStep p mem w (part w.toNat) a else mem w a
  else none

/-- all steps; `sched w s` is `sched[s]` on process `w` -/
def exchange {α : Type} (p : Prob) (npes : Nat) (sched : Nat → List Int) : Nat → Nat → (Int → Int → α) → C (Int → Int → α)
  | 0, _, mem => some mem
  | k + 1, s, mem => do
    let mem ← stepAll p npes (fun w => (sched w).getD s (-1)) mem
    exchange p npes sched k (s + 1) mem

/-- planning: the schedules of all processes, mpi/transpose-pairwise.c:414-456.
`junk` = uninitialised malloc'ed memory in `sort1_comm_sched`. -/
def schedules (p : Prob) (junk : Nat → List Int) : C (List (List Int)) := do
  let npes := nPes p
  let st ← sortSearch p (List.range npes) (-1, true)
  (List.range npes).mapM fun w : Nat => mkSched (w : Int) npes st.1 st.2 (junk w)

/-- planning and the in-place global exchange of all `n_pes` processes, in lock step -/
def transposeChunks {α : Type} (p : Prob) (junk : Nat → List Int) (mem : Int → Int → α) : C (Int → Int → α) := do
  let scheds ← schedules p junk
  exchange p (nPes p) (fun w => scheds.getD w []) (nPes p) 0 mem

/-- joint state of an asynchronous execution: the loop index and the memory of each process -/
structure Conf (α : Type) where
  pc : Nat → Nat
  mem : Int → Int → α

/-- One step of an asynchronous execution of `transpose_chunks` on all processes (mpi/transpose-pairwise.c:61-79), processes
progressing at arbitrary relative speeds: either a process whose current partner is itself executes the `memmove`, or two
processes which currently address each other complete their `MPI_Sendrecv`s.  A process whose partner is not (yet)
addressing it blocks. -/
inductive AsyncStep {α : Type} (p : Prob) (scheds : List (List Int)) : Conf α → Conf α → Prop
  | own (c : Conf α) (w : Nat) (hw : w < nPes p) (hlt : c.pc w < nPes p) (h : (scheds.getD w []).getD (c.pc w) (-1) = w) :
      AsyncStep p scheds c
        { pc := fun x => if x = w then c.pc w + 1 else c.pc x
          mem := fun x a => if x = w then recvStep p c.mem w w a else c.mem x a }
  | pair (c : Conf α) (w q : Nat) (hw : w < nPes p) (hq : q < nPes p) (hne : w ≠ q) (hlt : c.pc w < nPes p) (hlt' : c.pc q < nPes p)
      (h : (scheds.getD w []).getD (c.pc w) (-1) = q) (h' : (scheds.getD q []).getD (c.pc q) (-1) = w) :
      AsyncStep p scheds c
        { pc := fun x => if x = w then c.pc w + 1 else if x = q then c.pc q + 1 else c.pc x
          mem := fun x a => if x = w then recvStep p c.mem w q a else if x = q then recvStep p c.mem q w a else c.mem x a }

end FFTW.MpiExchange
