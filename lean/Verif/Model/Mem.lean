import Mathlib.Data.Real.Basic
import Mathlib.Data.Complex.Basic

/-!
# Memory

`R` is modelled by `ℝ`.  A pointer is a block number and an offset counted in `R`s: the caller's arrays live in blocks
below `next`, `MALLOC` returns offset 0 of a fresh block whose contents are arbitrary.  `X(ifree)` is a no-op: a block
number is never handed out again, and no modelled code reads a freed block.
-/

namespace FFTW

/-- an `R *` -/
@[ext] structure Ptr where
  blk : ℕ
  off : ℤ
  deriving DecidableEq

/-- `p + i`, pointer arithmetic -/
instance : HAdd Ptr ℤ Ptr := ⟨fun p i => ⟨p.blk, p.off + i⟩⟩

/-- `p - q`, pointer difference (meaningful within one block) -/
instance : HSub Ptr Ptr ℤ := ⟨fun p q => p.off - q.off⟩

/-- contents of memory and the next fresh block -/
@[ext] structure State where
  mem : Ptr → ℝ
  next : ℕ

/-- `MALLOC(...)`: pointer to a fresh block -/
def State.fresh (st : State) : Ptr := ⟨st.next, 0⟩
/-- effect of `MALLOC(...)` -/
def State.malloc (st : State) : State := { st with next := st.next + 1 }

/-- `buf = MALLOC(...); f(buf); X(ifree)(buf)` (also `BUF_ALLOC`, `BUF_FREE`, kernel/ifftw.h:212-228).  In a loop every round gets the same block,
with what the round before left in it: so this also models a buffer allocated once around the loop. -/
def withBuf (f : Ptr → State → State) (st : State) : State := { f st.fresh st.malloc with next := st.next }

/-- `*p = x` -/
def State.set (st : State) (p : Ptr) (x : ℝ) : State := { st with mem := Function.update st.mem p x }

/-- `for (i = 0; i < n; ++i) body(i)` -/
def forN (n : ℕ) (body : ℕ → State → State) (st : State) : State :=
  match n with
  | 0 => st
  | n + 1 => body n (forN n body st)

/-- the same with other loop variables -/
def iter {σ : Type} (n : ℕ) (body : ℕ → σ → σ) (s : σ) : σ :=
  match n with
  | 0 => s
  | n + 1 => body n (iter n body s)

end FFTW
