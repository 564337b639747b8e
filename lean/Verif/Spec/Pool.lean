import Verif.Model.Pool
import Mathlib.Logic.Function.Iterate
/-!
# Specification of the thread pool

Which programs may use the library, and what the history must say about a call of `spawn_loop`.
-/

namespace FFTW.Pool
open FFTW.Spawn

/-- code inside `proc`: every `spawn_loop` call satisfies its assertions, and `fftw_cleanup_threads` is not called -/
def Prog.Inner : Prog → Prop
  | .done => True
  | .loop lm n body rest => (∃ ds, spawnLoop lm n = some ds ∧ ∀ d ∈ ds, (body d).Inner) ∧ rest.Inner
  | .cleanup _ => False

/-- application code -/
def Prog.Valid : Prog → Prop
  | .done => True
  | .loop lm n body rest => (∃ ds, spawnLoop lm n = some ds ∧ ∀ d ∈ ds, (body d).Inner) ∧ rest.Valid
  | .cleanup rest => rest.Valid

/-- the events in which `proc` starts on block `i` of call `J` -/
def starts (l : List Event) (J i : ℕ) : List Event := l.filter fun
  | .start J' i' _ => J' == J && i' == i
  | _ => false

/-- According to history `l`, `proc` has been called exactly once for every block of `ds`, with that block as its argument, and has returned
exactly once from it; and it has been called for nothing else in call `J`. -/
def RanOnce (l : List Event) (J : ℕ) (ds : List SpawnData) : Prop :=
  (∀ (i : ℕ) (d : SpawnData), ds[i]? = some d → starts l J i = [.start J i d] ∧ l.count (.finish J i) = 1) ∧
  ∀ i, ds.length ≤ i → starts l J i = [] ∧ l.count (.finish J i) = 0

/-- Worker `w` is idle: its thread waits for `ready`, nothing is pending, and it can be found in the queue: following `cdr` from
`worker_queue` reaches it. -/
def Idle (s : Sys) (w : ℕ) : Prop := s.stack (.wk w) = [.wait] ∧ s.ready w = 0 ∧ s.done w = 0 ∧
  ∃ k : ℕ, (fun o : Option ℕ => o.bind s.cdr)^[k] s.head = some w

end FFTW.Pool
