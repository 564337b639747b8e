import Verif.Model.Problem

/-!
# Sound plans and sound solvers
-/

namespace FFTW
open Tensor Spec

/-- complex dimensions carry no kind -/
def tag (sz : List Dim) : List (Dim × Unit) := sz.map fun d => (d, ())

/-- no input location is an output location -/
def Apart (T : Tensor) (I O : Ptr) : Prop := ∀ a ∈ ins T, ∀ b ∈ outs T, I + a ≠ O + b

/-- real problems: sizes are positive and trivial vector dimensions have been dropped; an array transformed in place has the same input and output locations, other arrays do not overlap -/
def KosherR (p : RdftP) : Prop :=
  (p.I = p.O → ins (append (some (p.sz.map Prod.fst)) p.vecsz) = outs (append (some (p.sz.map Prod.fst)) p.vecsz)) ∧
  (p.I ≠ p.O → Apart (append (some (p.sz.map Prod.fst)) p.vecsz) p.I p.O) ∧
  (∀ e ∈ p.sz, 0 < e.1.n) ∧ ∀ l, p.vecsz = some l → ∀ d ∈ l, 1 < d.n

/-- an in-place problem with a trigonometric (REDFT, RODFT) dimension has equal input and output strides.  The solvers of reodft/ need this
but do not check it (theorem `C35_inplace_transposed_wrong`), so it has to be a promise of the user. -/
def NotTransposed (p : RdftP) : Prop :=
  p.I = p.O → (∃ e ∈ p.sz, e.2.reodft = true) → ∀ l, p.vecsz = some l → (∀ e ∈ p.sz, e.1.n ≠ 1 → e.1.is = e.1.os) ∧ ∀ d ∈ l, d.is = d.os

/-- the rows of a real-to-complex or complex-to-real problem -/
noncomputable def Rdft2P.half (p : Rdft2P) : Half :=
  match p.kind with
  | .R2HC => r2cHalf (lastDim p.sz).n (p.r1 - p.r0) (lastDim p.sz).is (p.ci - p.cr) (lastDim p.sz).os
  | .HC2R => c2rHalf (lastDim p.sz).n (p.r1 - p.r0) (lastDim p.sz).os (p.ci - p.cr) (lastDim p.sz).is

/-- where the input is -/
def Rdft2P.I (p : Rdft2P) : Ptr :=
  match p.kind with
  | .R2HC => p.r0
  | .HC2R => p.cr
/-- where the output is -/
def Rdft2P.O (p : Rdft2P) : Ptr :=
  match p.kind with
  | .R2HC => p.cr
  | .HC2R => p.r0

/-- a plan for `p` run on other arrays -/
def Rdft2P.run (p : Rdft2P) (f : Ptr → Ptr → Ptr → Ptr → State → State) (I O : Ptr) : State → State :=
  match p.kind with
  | .R2HC => f I (I + (p.r1 - p.r0)) O (O + (p.ci - p.cr))
  | .HC2R => f O (O + (p.r1 - p.r0)) I (I + (p.ci - p.cr))

/-- real-to-complex and complex-to-real problems: input and output do not overlap, unless they are the same, and then every row stays at its
place; sizes are positive, no negative strides, trivial dimensions have been dropped except perhaps the last one; pointers whose difference is taken
are pointers into the same block -/
def Kosher2 (p : Rdft2P) : Prop :=
  (p.r1.blk = p.r0.blk ∧ p.ci.blk = p.cr.blk) ∧
  (p.r0 = p.cr → (∀ d ∈ p.sz.dropLast, d.is = d.os) ∧ ∀ l, p.vecsz = some l → ∀ d ∈ l, d.is = d.os) ∧
  (p.r0 ≠ p.cr → HApart p.half (append (some p.sz.dropLast) p.vecsz) p.I p.O) ∧
  (∀ d ∈ p.sz.dropLast, 0 ≤ d.is ∧ 0 ≤ d.os ∧ 1 < d.n) ∧
  (0 ≤ (lastDim p.sz).is ∧ 0 ≤ (lastDim p.sz).os ∧ 0 < (lastDim p.sz).n) ∧
  ∀ l, p.vecsz = some l → ∀ d ∈ l, 0 ≤ d.is ∧ 0 ≤ d.os ∧ 1 < d.n

/-- shifted real-to-complex and complex-to-real problems (kinds `R2HCII`, `HC2RIII`) are only asked for by rdft/ct-hc2c-direct.c:343-350: one
row, in place -/
def KosherS (p : Rdft2P) : Prop :=
  p.r0 = p.cr ∧ p.r1 = p.ci ∧ p.vecsz = some [] ∧ p.sz.length ≤ 1 ∧ (lastDim p.sz).is = (lastDim p.sz).os ∧ 0 < (lastDim p.sz).n

/-- problems the planner may be asked to solve: sizes are positive (trivial dimensions of complex problems have been dropped); complex problems
have no negative strides; arrays with equal
pointers (which then come in pairs) have the same input and output locations, other arrays do not overlap; in-place trigonometric transforms are
not transposed -/
def Kosher : Problem → Prop
  | .dft p =>
    (p.ri = p.ro ∨ p.ii = p.io → p.ri = p.ro ∧ p.ii = p.io ∧
      ins (append (some p.sz) p.vecsz) = outs (append (some p.sz) p.vecsz)) ∧
    (p.ri ≠ p.ro → Apart (locT ℂ (p.ii - p.ri) (p.io - p.ro) (tag p.sz) p.vecsz) p.ri p.ro) ∧
    (∀ d ∈ p.sz, 0 ≤ d.is ∧ 0 ≤ d.os ∧ 1 < d.n) ∧ ∀ l, p.vecsz = some l → ∀ d ∈ l, 0 ≤ d.is ∧ 0 ≤ d.os ∧ 1 < d.n
  | .rdft p => KosherR p ∧ NotTransposed p
  | .rdft2 p => Kosher2 p
  | .rdft2s p => KosherS p
  | .unsolvable => True

/-- the plan `pl` solves the problem, keeping its input if `nd`; a plan for an empty problem can be run on any pointers, whether or not
they were equal when it was made -/
def Sound (nd : Bool) : Problem → Plan → Prop
  | .dft p, .dft f => GOK dftK (tag p.sz) p.vecsz (p.ii - p.ri) (p.io - p.ro) (decide (p.ri = p.ro) && p.vecsz.isSome) nd
      fun I O => f I (I + (p.ii - p.ri)) O (O + (p.io - p.ro))
  | .rdft p, .rdft f => GOK rK p.sz p.vecsz 0 0 (decide (p.I = p.O) && p.vecsz.isSome) nd f
  | .rdft2 p, .rdft2 f => HOK p.half (tag p.sz.dropLast) p.vecsz (decide (p.r0 = p.cr) && p.vecsz.isSome) nd (p.run f)
  | .rdft2s p, .rdft2 f => ShiftOK (decide (p.kind = .R2HC)) (lastDim p.sz).n (p.r1 - p.r0) (lastDim p.sz).is
      fun P => f P (P + (p.r1 - p.r0)) P (P + (p.r1 - p.r0))
  | _, _ => False

/-- whatever sound plans the planner supplies, the program ends with a result satisfying `Q`; it only asks for kosher problems -/
def Mk.Good {α : Type} (fl : Flags) (Q : α → Prop) : Mk α → Prop
  | .ret a => Q a
  | .plan p m k => Kosher p ∧ ∀ r : Option Plan, (∀ pl, r = some pl → Sound (fl.modify m).nd p pl) → (k r).Good fl Q

/-- a sound solver returns only sound plans, provided its child plans are sound -/
def Solver.Sound (s : Solver) : Prop :=
  ∀ p fl, Kosher p → (s.mkplan p fl).Good fl fun r => ∀ pl, r = some pl → FFTW.Sound fl.nd p pl

end FFTW
