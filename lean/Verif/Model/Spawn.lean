import Verif.Model.CInt
/-!
# `threads/threads.c`, `threads/openmp.c` — loop partition (`spawn_loop`)
-/

namespace FFTW.Spawn

/-- result of 32-bit `int` arithmetic -/
def ck32 (x : Int) : C Int := if -2 ^ 31 ≤ x ∧ x < 2 ^ 31 then some x else none

/-- `spawn_data`, threads/threads.h (the `data` pointer is passed through unchanged and omitted) -/
structure SpawnData where
  min : Int
  max : Int
  thrNum : Int
  deriving DecidableEq, Repr

/-- the block handed to thread `i`: threads/threads.c:405-410, 424-429; threads/openmp.c:78-82 -/
def blockOf (loopmax blockSize i : Int) : C SpawnData := do
  let mn ← ck32 (i * blockSize)
  let mx ← ck32 (mn + blockSize)
  let mx := if mx > loopmax then loopmax else mx
  return { min := mn, max := mx, thrNum := i }

/-- the `for (i = 0; i < nthr; ++i)` loop -/
def blocks (loopmax blockSize nthr : Int) (i : Int) : C (List SpawnData) := do
  if i < nthr then
    let d ← blockOf loopmax blockSize i
    let ds ← blocks loopmax blockSize nthr (i + 1)
    return d :: ds
  else return []
partial_fixpoint

/-- The blocks that `spawn_loop` hands to `proc` (threads/threads.c:382-452; same code in threads/openmp.c:38-84),
in loop order.  Who executes them is the subject of the thread-pool model. -/
def spawnLoop (loopmax nthr : Int) : C (List SpawnData) := do
  if loopmax < 0 ∨ nthr ≤ 0 then none                      -- A(loopmax >= 0); A(nthr > 0)
  else if loopmax = 0 then return []
  else
    let a ← ck32 (loopmax + nthr)
    let a ← ck32 (a - 1)
    let blockSize := a.tdiv nthr
    let c ← ck32 (loopmax + blockSize)
    let c ← ck32 (c - 1)
    let nthr := c.tdiv blockSize
    blocks loopmax blockSize nthr 0

end FFTW.Spawn
