import Verif.Model.Wisdom
import Verif.Model.Mpi

/-!
# `mpi/wisdom-api.c`: collecting and distributing wisdom

The processes of a communicator run in lock step; `sts w` is the planner of process `w`.  What a process does depends on nothing but its rank and the number of processes, and each message has one sender
and one receiver, so that the order in which disjoint groups of processes are treated is immaterial.  Memory is not modelled.
-/

namespace FFTW.Mpi.MWisdom
open FFTW.Planner

/-- results: no result at all (the program does not end), an error, or a value.  `MPI_Abort` is `.abort`. -/
abbrev Out (α : Type) := ExceptT Err Option α

/-- the planners of all processes -/
abbrev PSts := ℕ → PSt

/-- the `strlen(wis) + 1` characters sent, mpi/wisdom-api.c:71, 118: up to the first NUL; `none` if a character is read that has not been written -/
def cString : List (Option Int) → Option (List UInt8)
  | [] => none
  | none :: _ => none
  | some c :: l => if UInt8.ofNat (c % 256).toNat = 0 then some [0] else (cString l).map (UInt8.ofNat (c % 256).toNat :: ·)

/-- what process `a` sends: `X(export_wisdom_to_string)`, api/export-wisdom-to-string.c:23-42, on its planner `st` -/
def sent (env : Env) (st : PSt) : Out (List UInt8) :=
  match ((exprt env st).bind Print.exportToString).bind cString with
  | none => throw .ub
  | some s => pure s

/-- what a process does with the message: `X(import_wisdom_from_string)`, and `MPI_Abort` if it fails, mpi/wisdom-api.c:80-81, 112-113 -/
def received (env : Env) (st : PSt) (s : List UInt8) : Out PSt :=
  match importFromString env st s with
  | none => (none : Option (Except Err PSt))
  | some (.error e) => throw e
  | some (.ok (false, _)) => throw .abort
  | some (.ok (true, st)) => pure st

/-- lines 67-84 of mpi/wisdom-api.c: process `b` imports the wisdom of process `a` -/
def transfer (env : ℕ → Env) (a b : ℕ) (sts : PSts) : Out PSts := do
  let s ← sent (env a) (sts a)
  let st ← received (env b) (sts b) s
  pure fun w => if w = b then st else sts w

theorem split_parity_lt (c : Comm) (x : ℕ) (h : 2 < c.length) : (c.split (fun me => me % 2) x).length < c.length := by
  unfold Comm.split
  rw [List.length_map]
  conv_rhs => rw [← List.length_range (n := c.length)]
  rw [List.length_filter_lt_length_iff_exists]
  by_cases hx : x = 0
  · exact ⟨1, List.mem_range.2 (by omega), by simp [hx]⟩
  · exact ⟨0, List.mem_range.2 (by omega), by simpa using Ne.symm hx⟩

/-- `XM(gather_wisdom)`, mpi/wisdom-api.c:44-87, called by all processes of `c` -/
def gather (env : ℕ → Env) (c : Comm) (sts : PSts) : Out PSts := do
  let sts ← (if _h : 2 < c.length then (do               -- recursively split into even/odd processes
      let sts ← gather env (c.split (fun me => me % 2) 0) sts
      gather env (c.split (fun me => me % 2) 1) sts)
    else pure sts)
  if c.length > 1 then transfer env (c.at 1) (c.at 0) sts else pure sts
termination_by c.length
decreasing_by
  · exact split_parity_lt c 0 _h
  · exact split_parity_lt c 1 _h

/-- the processes `ws` import the string received -/
def importAll (env : ℕ → Env) (s : List UInt8) : List ℕ → PSts → Out PSts
  | [], sts => pure sts
  | w :: ws, sts => do
    let st ← received (env w) (sts w) s
    importAll env s ws fun v => if v = w then st else sts v

/-- `XM(broadcast_wisdom)`, mpi/wisdom-api.c:94-125, called by all processes of `c` -/
def broadcast (env : ℕ → Env) (c : Comm) (sts : PSts) : Out PSts := do
  let s ← sent (env (c.at 0)) (sts (c.at 0))
  importAll env s c.tail sts

end FFTW.Mpi.MWisdom
