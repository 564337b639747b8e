import Verif.Model.Mem
import Mathlib.Data.Set.Basic

/-!
# What a copy is

A rearrangement is described by the set of its (source, destination) pairs.  All sources are read from the memory *before*
the operation, so this also describes in-place permutations.
-/

namespace FFTW.Spec

/-- `st'` is `st` with every source copied to its destination; no other location of the caller changes -/
structure Copies (M : Set (Ptr × Ptr)) (st st' : State) : Prop where
  next : st.next ≤ st'.next
  copied : ∀ e ∈ M, st'.mem e.2 = st.mem e.1
  other : ∀ q : Ptr, q.blk < st.next → (∀ e ∈ M, q ≠ e.2) → st'.mem q = st.mem q

/-- element `(i0, i1, v)` goes from `I + i0*is0 + i1*is1 + v` to `O + i0*os0 + i1*os1 + v` -/
def map2d (I O : Ptr) (n0 : ℕ) (is0 os0 : ℤ) (n1 : ℕ) (is1 os1 : ℤ) (vl : ℕ) : Set (Ptr × Ptr) :=
  {e | ∃ i0 i1 v : ℕ, i0 < n0 ∧ i1 < n1 ∧ v < vl ∧
    e = (I + ((i0 : ℤ) * is0 + (i1 : ℤ) * is1 + (v : ℤ)), O + ((i0 : ℤ) * os0 + (i1 : ℤ) * os1 + (v : ℤ)))}

/-- the same for two arrays with the same geometry -/
def map2dPair (I0 I1 O0 O1 : Ptr) (n0 : ℕ) (is0 os0 : ℤ) (n1 : ℕ) (is1 os1 : ℤ) : Set (Ptr × Ptr) :=
  map2d I0 O0 n0 is0 os0 n1 is1 os1 1 ∪ map2d I1 O1 n0 is0 os0 n1 is1 os1 1

/-- element `(i0, v)` goes from `I + i0*is0 + v` to `O + i0*os0 + v` -/
def map1d (I O : Ptr) (n0 : ℕ) (is0 os0 : ℤ) (vl : ℕ) : Set (Ptr × Ptr) :=
  {e | ∃ i0 v : ℕ, i0 < n0 ∧ v < vl ∧ e = (I + ((i0 : ℤ) * is0 + (v : ℤ)), O + ((i0 : ℤ) * os0 + (v : ℤ)))}

/-- transposition of an `n × n` matrix of `vl`-tuples with strides `s0`, `s1` -/
def mapT (I : Ptr) (n : ℕ) (s0 s1 : ℤ) (vl : ℕ) : Set (Ptr × Ptr) := map2d I I n s0 s1 n s1 s0 vl

/-- an out-of-place rearrangement: no source is a destination, and no destination has two sources -/
structure OutOfPlace (M : Set (Ptr × Ptr)) : Prop where
  disj : ∀ e ∈ M, ∀ e' ∈ M, e'.1 ≠ e.2
  func : ∀ e ∈ M, ∀ e' ∈ M, e.2 = e'.2 → e.1 = e'.1

/-- all locations exist before the operation -/
def Below (N : ℕ) (M : Set (Ptr × Ptr)) : Prop := ∀ e ∈ M, e.1.blk < N ∧ e.2.blk < N

end FFTW.Spec
