import Verif.Spec.MpiDft
import Verif.Model.MpiApiDft

/-!
# Distributed arrays as the user sees them
-/

namespace FFTW.Mpi
open Tensor Spec

/-- position of the element with index `l` in an array with dimensions `ns` in row-major order -/
def rowPos : List ℕ → List ℕ → ℕ
  | _ :: ns, l :: ls => l * ns.prod + rowPos ns ls
  | _, _ => 0

/-- `TRANSPOSED` arrays are stored with the first two dimensions exchanged -/
def flip2 (t : Bool) (l : List ℕ) : List ℕ := if t then swap2 l else l

/-- The processes of `comm` hold the array `X` of `vn`-tuples: the process of rank `me` has the elements whose index is `start me + l` with `l` less than `n me` (in every component), in its
array `P`, in row-major order of `l`; with the first two dimensions exchanged if `t`. -/
def Holds (vn : ℕ) (comm : Comm) (P : ℕ → Ptr) (st : Dist) (t : Bool) (n start : ℕ → List ℕ) (X : List ℕ → ℕ → ℂ) : Prop :=
  ∀ me < comm.length, ∀ l, Index (n me) l → ∀ v < vn,
    cplx vn comm P st (me, rowPos (flip2 t (n me)) (flip2 t l)) v = X (List.zipWith (· + ·) (start me) l) v

/-- the same for an array of real numbers -/
def HoldsR (vn : ℕ) (comm : Comm) (P : ℕ → Ptr) (st : Dist) (t : Bool) (n start : ℕ → List ℕ) (X : List ℕ → ℕ → ℝ) : Prop :=
  ∀ me < comm.length, ∀ l, Index (n me) l → ∀ v < vn,
    relt vn comm P st (me, rowPos (flip2 t (n me)) (flip2 t l)) v = X (List.zipWith (· + ·) (start me) l) v

/-- the element at position `q` of a one-dimensional input array that is `SCRAMBLED_IN` -/
def scrambleIn (scr : Bool) (npes : ℕ) (bwd : Bool) (ns q : List ℕ) : List ℕ :=
  match ns, q with
  | [n], [q] => match chooseRadix n npes bwd with
    | some (r, m) => if scr then [q % m * r + q / m] else [q]
    | none => [q]
  | _, q => q
/-- the element at position `q` of a one-dimensional output array that is `SCRAMBLED_OUT` -/
def scrambleOut (scr : Bool) (npes : ℕ) (bwd : Bool) (ns q : List ℕ) : List ℕ :=
  match ns, q with
  | [n], [q] => match chooseRadix n npes bwd with
    | some (r, m) => if scr then [q % r * m + q / r] else [q]
    | none => [q]
  | _, q => q

/-- Distributions and flags for which the layout is what `fftw_mpi_local_size` says: one-dimensional transforms have default blocks and may be scrambled.  Others may be transposed, and if there is
more than one process, are distributed in one dimension only: the first, or, transposed, the second. -/
def LayoutOk (dims : List ADim) (npes : ℕ) (flags : MFlags) : Prop :=
  match dims with
  | [] => True
  | [d] => d.ib = 0 ∧ d.ob = 0 ∧ flags.onlyScrambled = true
  | a :: b :: l => flags.onlyTransposed = true ∧ (npes = 1 ∨
      ((∀ d ∈ l, d.ib = d.n ∧ d.ob = d.n) ∧ (if flags.transposedIn then a.ib = a.n ∧ b.ib < b.n else b.ib = b.n ∧ a.ib < a.n) ∧
        (if flags.transposedOut then a.ob = a.n ∧ b.ob < b.n else b.ob = b.n ∧ a.ob < a.n)))

end FFTW.Mpi
