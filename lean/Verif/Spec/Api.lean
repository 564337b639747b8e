import Verif.Model.Mem
import Verif.Model.Tensor
import Mathlib.Analysis.SpecialFunctions.Complex.Log
import Mathlib.Data.List.Forall2

/-!
# What the user is promised

The text of the manual ("What FFTW Really Computes", "Guru Interface", "Advanced Complex DFTs") in terms of arrays, index vectors
and memory, independent of FFTW's data structures.
-/

namespace FFTW.Spec
open FFTW.Tensor (Dim)

/-- element number `o` of an array of `fftw_complex` -/
def celt (m : Ptr → ℝ) (c : Ptr) (o : ℤ) : ℂ := ⟨m (c + 2 * o), m (c + (2 * o + 1))⟩

/-- element number `o` of a complex array stored as two arrays of reals -/
def selt (m : Ptr → ℝ) (r i : Ptr) (o : ℤ) : ℂ := ⟨m (r + o), m (i + o)⟩

/-- `k` is an index vector of an array with extents `n` -/
def Box (n k : List ℕ) : Prop := List.Forall₂ (fun k n => k < n) k n

/-- sum over all index vectors of an array with extents `n` -/
def sumBox {V : Type} [AddCommMonoid V] : List ℕ → (List ℕ → V) → V
  | [], f => f []
  | n :: ns, f => ∑ j ∈ Finset.range n, sumBox ns fun js => f (j :: js)

/-- `∏_d exp(s 2πi j_d k_d / n_d)` -/
noncomputable def twist (s : ℤ) : List ℕ → List ℕ → List ℕ → ℂ
  | n :: ns, j :: js, k :: ks => Complex.exp (s * (2 * Real.pi * Complex.I) * (j * k) / n) * twist s ns js ks
  | _, _, _ => 1

/-- `∑_d s_d j_d`: where strides `s` put the element with index vector `j` -/
def dot (s : List ℤ) (j : List ℕ) : ℤ := (List.zipWith (fun (s : ℤ) (j : ℕ) => s * j) s j).sum

/-- Horner's rule: the row-major position of index vector `j` in an array declared with extents `e` (the first is irrelevant) -/
def rowMajor (e : List ℤ) (j : List ℕ) : ℤ := (e.zip j).foldl (fun acc p => acc * p.1 + p.2) 0

/-- a batch of transforms: extents of one transform, extents of the loops around it, and the positions (counted in elements) of the
element with index vector `j` of transform `b` in the input and in the output array -/
structure Batch where
  n : List ℕ
  v : List ℕ
  inp : List ℕ → List ℕ → ℤ
  out : List ℕ → List ℕ → ℤ

/-- guru interface: transform dimensions and loop ("howmany") dimensions, each with extent, input stride and output stride -/
def guruBatch (dims loops : List Dim) : Batch where
  n := dims.map (·.n)
  v := loops.map (·.n)
  inp b j := dot (loops.map (·.is)) b + dot (dims.map (·.is)) j
  out b k := dot (loops.map (·.os)) b + dot (dims.map (·.os)) k

/-- advanced interface: `howmany` arrays `idist` (`odist`) apart, elements `istride` (`ostride`) apart in row-major order of an array with
extents `inembed` (`onembed`) -/
def manyBatch (n : List ℕ) (howmany : ℕ) (inembed : List ℤ) (istride idist : ℤ) (onembed : List ℤ) (ostride odist : ℤ) : Batch where
  n := n
  v := [howmany]
  inp b j := b.headD 0 * idist + istride * rowMajor inembed j
  out b k := b.headD 0 * odist + ostride * rowMajor onembed k

namespace Batch
/-- set of input positions -/
def Inp (B : Batch) (x : ℤ) : Prop := ∃ b j, Box B.v b ∧ Box B.n j ∧ x = B.inp b j
/-- set of output positions -/
def Out (B : Batch) (x : ℤ) : Prop := ∃ b k, Box B.v b ∧ Box B.n k ∧ x = B.out b k
/-- different output elements are at different places -/
def OutInj (B : Batch) : Prop := ∀ b k b' k', Box B.v b → Box B.n k → Box B.v b' → Box B.n k' → B.out b k = B.out b' k' → b = b' ∧ k = k'
/-- different input elements are at different places -/
def InInj (B : Batch) : Prop := ∀ b k b' k', Box B.v b → Box B.n k → Box B.v b' → Box B.n k' → B.inp b k = B.inp b' k' → b = b' ∧ k = k'
end Batch

/-- `m'` holds at the output places the DFTs with exponent sign `s` of what `m` holds at the input places, elements being read by `gi`
and `go` -/
def Dfts (s : ℤ) (B : Batch) (gi go : ℤ → ℂ) : Prop :=
  ∀ b k, Box B.v b → Box B.n k → go (B.out b k) = sumBox B.n fun j => twist s B.n j k * gi (B.inp b j)

/-- nothing changed that existed in `st` and is not in `W` -/
structure OnlyChanges (st st' : State) (W : Ptr → Prop) : Prop where
  next : st.next ≤ st'.next
  mem : ∀ q : Ptr, q.blk < st.next → ¬ W q → st'.mem q = st.mem q

/-- the reals making up the elements of an interleaved complex array at the given positions -/
def CMem (c : Ptr) (P : ℤ → Prop) (q : Ptr) : Prop := ∃ x, P x ∧ (q = c + 2 * x ∨ q = c + (2 * x + 1))
/-- the same for a complex array stored as two arrays of reals -/
def SMem (r i : Ptr) (P : ℤ → Prop) (q : Ptr) : Prop := ∃ x, P x ∧ (q = r + x ∨ q = i + x)

/-- the same array, or arrays without common memory (interleaved complex) -/
def Separate (B : Batch) (inp out : Ptr) : Prop := inp = out ∨ ∀ q, CMem inp B.Inp q → ¬ CMem out B.Out q
/-- the same arrays, or arrays without common memory (split complex) -/
def SeparateS (B : Batch) (ri ii ro io : Ptr) : Prop := (ri = ro ∧ ii = io) ∨ ∀ q, SMem ri ii B.Inp q → ¬ SMem ro io B.Out q

/-- exponent sign: FFTW_FORWARD is `-1`; every other value is treated as FFTW_BACKWARD = `+1` -/
def expSign (sign : ℤ) : ℤ := if sign = -1 then -1 else 1

end FFTW.Spec
