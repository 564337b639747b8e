import Verif.Model.CInt
/-!
# `mpi/transpose-pairwise.c` — the pairwise exchange schedule

`int` overflow is not modelled here (process counts are below 2^30).  Arrays are lists; a store outside the
array, a read outside the array and a failed `A(...)` give `none`.
-/

namespace FFTW.MpiSched

/-- `sched[s++] = v` for the array `sched[npes]` -/
def push (npes : Nat) (sched : List Int) (v : Int) : C (List Int) :=
  if sched.length < npes then some (sched ++ [v]) else none

/-- body of the `for (pe = 0; pe < n - 1; ++pe)` loop of `fill1_comm_sched`, mpi/transpose-pairwise.c:227-243.
C `%` is `Int.tmod`. -/
def fillStep (npes : Nat) (n which pe : Int) (sched : List Int) : C (List Int) := do
  let sched ← if (npes : Int).tmod 2 = 0 then
      if pe = which then push npes sched (npes - 1)
      else if (npes : Int) - 1 = which then push npes sched pe
      else some sched
    else if pe = which then push npes sched pe
    else some sched
  if pe ≠ which ∧ which < n - 1 then
    let i := (pe - which + (n - 1)).tmod (n - 1)
    let sched ← if i < n.tdiv 2 then push npes sched ((pe + i).tmod (n - 1)) else some sched
    let i := (which - pe + (n - 1)).tmod (n - 1)
    if i < n.tdiv 2 then push npes sched ((pe - i + (n - 1)).tmod (n - 1)) else some sched
  else some sched

/-- the loop, from `pe` on, `k` iterations left -/
def fillLoop (npes : Nat) (n which : Int) : Nat → Int → List Int → C (List Int)
  | 0, _, sched => some sched
  | k + 1, pe, sched => do
    let sched ← fillStep npes n which pe sched
    fillLoop npes n which k (pe + 1) sched

/-- `fill1_comm_sched`, mpi/transpose-pairwise.c:216-245 -/
def fill1 (which : Int) (npes : Nat) : C (List Int) := do
  if ¬ (0 ≤ which ∧ which < npes) then none            -- A(which_pe >= 0 && which_pe < npes)
  else
    let r ← if (npes : Int).tmod 2 = 0 then
        (push npes [] which).bind fun s => some ((npes : Int), s)
      else some ((npes : Int) + 1, [])
    let n := r.1
    let sched ← fillLoop npes n which (n - 1).toNat 0 r.2
    if sched.length = npes then some sched else none   -- A(s == npes)

/-- `a[i] = v` -/
def store (a : List Int) (i v : Int) : C (List Int) :=
  if 0 ≤ i ∧ i < a.length then some (a.set i.toNat v) else none

/-- the scatter loop of `sort1_comm_sched`, mpi/transpose-pairwise.c:259-264: `(sortsched[i], sched[i])` in order.
The upper half `sortsched[npes .. 2 npes - 1]` is the array `up`. -/
def scatter (ascending : Bool) (npes : Int) : List (Int × Int) → List Int → C (List Int)
  | [], up => some up
  | (s, v) :: rest, up => do
    let idx := if ascending then npes + s else 2 * npes - 1 - s
    let up ← store up (idx - npes) v
    scatter ascending npes rest up

/-- `sort1_comm_sched`, mpi/transpose-pairwise.c:255-269; `junk` = the uninitialised upper half of the malloc'ed array -/
def sort1 (sched : List Int) (npes : Nat) (sortpe : Int) (ascending : Bool) (junk : List Int) : C (List Int) := do
  let sortsched ← fill1 sortpe npes
  scatter ascending npes (sortsched.zip sched) junk

/-- the schedule stored in the plan of process `my_pe`: mpi/transpose-pairwise.c:452-456 -/
def mkSched (myPe : Int) (npes : Nat) (sortPe : Int) (ascending : Bool) (junk : List Int) : C (List Int) := do
  let sched ← fill1 myPe npes
  if sortPe ≥ 0 then sort1 sched npes sortPe ascending junk else some sched

end FFTW.MpiSched
