import Verif.Spec.Transform
import Verif.Model.Mem

/-!
# What it means for a plan to be right

`GOK` is the contract of one plan: for all pointers and all memory contents, running it stores the transform of the
input at every output location, changes no other location of the caller (except, when allowed, the input), and gives no
block back twice.  Elements may consist of several `R`s (`nc = 2` for split or interleaved complex numbers).
-/

namespace FFTW.Spec
open FFTW.Tensor

/-- element types: `nc` reals decode to one `V` -/
class Elt (V : Type) where
  nc : ℕ
  dec : (ℕ → ℝ) → V
  dec_congr : ∀ f g : ℕ → ℝ, (∀ c < nc, f c = g c) → dec f = dec g

instance : Elt ℝ := ⟨1, fun f => f 0, fun _ _ h => h 0 (by norm_num)⟩
instance : Elt ℂ := ⟨2, fun f => ⟨f 0, f 1⟩, fun _ _ h => by rw [h 0 (by norm_num), h 1 (by norm_num)]⟩

variable {V τ : Type} [CommRing V] [Elt V]

/-- the element at `p + o`: its components are `δ` apart -/
def val (m : Ptr → ℝ) (p : Ptr) (δ o : ℤ) : V := Elt.dec fun c => m (p + ((c : ℤ) * δ + o))

/-- all real numbers touched by a problem: component × transform dimensions × vector dimensions -/
def locT (V : Type) [Elt V] (δi δo : ℤ) (sz : List (Dim × τ)) (vec : Tensor) : Tensor :=
  append (some (⟨Elt.nc V, δi, δo⟩ :: sz.map Prod.fst)) vec

/-- well-formed problem: distinct output elements are at distinct locations; so are distinct input elements, unless the
input is read-only; an in-place problem has the same input and output locations -/
structure WF (V : Type) [Elt V] (sz : List (Dim × τ)) (vec : Tensor) (δi δo : ℤ) (inpl nd : Bool) : Prop where
  out : (outs (locT V δi δo sz vec)).Nodup
  inp : nd = false → (ins (locT V δi δo sz vec)).Nodup
  eq : inpl = true → ins (locT V δi δo sz vec) = outs (locT V δi δo sz vec)
  delta : inpl = true → δi = δo

/-- locations a plan may write -/
def Writable (T : Tensor) (nd : Bool) (I O : Ptr) (q : Ptr) : Prop :=
  (∃ b ∈ outs T, q = O + b) ∨ (nd = false ∧ ∃ a ∈ ins T, q = I + a)

/-- nothing but `W` (and fresh blocks) changes -/
structure Frame (st st' : State) (W : Ptr → Prop) : Prop where
  next : st.next ≤ st'.next
  mem : ∀ q, q.blk < st.next → ¬ W q → st'.mem q = st.mem q

/-- pointers a plan may be run on: in place with equal pointers, or disjoint arrays -/
structure Compat (T : Tensor) (inpl : Bool) (I O : Ptr) (st : State) : Prop where
  blkI : I.blk < st.next
  blkO : O.blk < st.next
  same : inpl = true → I = O
  disj : inpl = false → ∀ a ∈ ins T, ∀ b ∈ outs T, I + a ≠ O + b

/-- the contract -/
def GOK (K : τ → ℕ → ℕ → ℕ → V) (sz : List (Dim × τ)) (vec : Tensor) (δi δo : ℤ) (inpl nd : Bool)
    (f : Ptr → Ptr → State → State) : Prop :=
  WF V sz vec δi δo inpl nd → ∀ I O st, Compat (locT V δi δo sz vec) inpl I O st →
    Frame st (f I O st) (Writable (locT V δi δo sz vec) nd I O) ∧
    ∀ dk, GIdx sz dk → ∀ ab ∈ pairs vec,
      val (f I O st).mem O δo (gOut dk + ab.2) = gSum K dk fun o => (val st.mem I δi (o + ab.1) : V)

end FFTW.Spec
