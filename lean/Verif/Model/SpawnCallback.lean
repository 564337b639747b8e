import Verif.Model.Spawn

/-!
# `spawn_loop` with a user-defined backend (`fftw_threads_set_callback`)
-/

namespace FFTW.Spawn

/-- `sizeof(spawn_data)`: two `int`s, an `int` and a pointer; only that it is positive matters -/
def sizeofSpawnData : Nat := 24

/-- an array of `spawn_data` in memory: what is at an address -/
abbrev JobMem := Nat → Option SpawnData

/-- the arguments of `spawnloop_callback` (but `proc`, and the user's data that are passed through) and the array they point to -/
structure CallbackArgs where
  mem : JobMem
  jobdata : Nat
  elsize : Nat
  njobs : Int

/-- the loop that fills `sdata`, threads/threads.c:421-428; threads/openmp.c:64-71 -/
def fill (sdata loopmax blockSize nthr i : Int) (mem : JobMem) : C JobMem := do
  if i < nthr then
    let d ← blockOf loopmax blockSize i
    fill sdata loopmax blockSize nthr (i + 1) (fun a => if (a : Int) = sdata + sizeofSpawnData * i then some d else mem a)
  else return mem
partial_fixpoint

/-- `spawn_loop` with a user-defined backend, threads/threads.c:399-431, threads/openmp.c:41-75: `none` if the backend is not called; `sdata` is the address `STACK_MALLOC` returns -/
def spawnLoopCallback (sdata : Nat) (loopmax nthr : Int) : C (Option CallbackArgs) := do
  if loopmax < 0 ∨ nthr ≤ 0 then none                      -- A(loopmax >= 0); A(nthr > 0)
  else if loopmax = 0 then return none
  else
    let a ← ck32 (loopmax + nthr)
    let a ← ck32 (a - 1)
    let blockSize := a.tdiv nthr
    let c ← ck32 (loopmax + blockSize)
    let c ← ck32 (c - 1)
    let nthr := c.tdiv blockSize
    let mem ← fill sdata loopmax blockSize nthr 0 (fun _ => none)
    return some ⟨mem, sdata, sizeofSpawnData, nthr⟩

end FFTW.Spawn
