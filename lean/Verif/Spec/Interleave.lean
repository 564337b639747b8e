import Mathlib.Data.List.Induction
import Mathlib.Tactic.Push

/-!
# Threads that share a memory

An interleaving is a list of atomic accesses to a shared memory, each by one thread.  (Sequential consistency; for programs without
data races the C11 and POSIX memory models promise no less.)  Nothing here mentions the model of FFTW.
-/

namespace FFTW.Spec.Conc

variable {A X ι : Type}

/-- an atomic access: any change of the memory -/
abbrev Act (A X : Type) := (A → X) → (A → X)

/-- `a` changes only `W`, and what it stores there depends only on what `R` and `W` hold -/
structure Confined (R W : A → Prop) (a : Act A X) : Prop where
  frame : ∀ m q, ¬ W q → a m q = m q
  dep : ∀ m m', (∀ q, R q ∨ W q → m q = m' q) → ∀ q, W q → a m q = a m' q

/-- no thread writes what another thread reads or writes -/
def RaceFree (R W : ι → A → Prop) : Prop := ∀ i j, i ≠ j → ∀ q, W i q → ¬ R j q ∧ ¬ W j q

/-- the memory after the accesses `l`, in this order -/
def run (l : List (ι × Act A X)) (m : A → X) : A → X := l.foldl (fun m ia => ia.2 m) m

/-- what thread `i` does -/
def only [DecidableEq ι] (i : ι) (l : List (ι × Act A X)) : List (ι × Act A X) := l.filter fun ia => ia.1 = i

/-- `l` interleaves the programs `P 0, ..., P (n-1)` -/
structure Interleaves (n : ℕ) (P : ℕ → List (Act A X)) (l : List (ℕ × Act A X)) : Prop where
  lt : ∀ ia ∈ l, ia.1 < n
  prog : ∀ i < n, only i l = (P i).map fun a => (i, a)

/-- the programs one after the other, in the order `o` -/
def sequential (P : ℕ → List (Act A X)) (o : List ℕ) : List (ℕ × Act A X) := o.flatMap fun i => (P i).map fun a => (i, a)

end FFTW.Spec.Conc
