import Verif.Model.Tensor
import Verif.Model.Mem
import Verif.Spec.Rdft2

/-!
# Problems, plans and the interface between solvers and the planner

Taint bits (alignment) are not modelled.  Wakefulness is not modelled: a plan here is an awake plan.
-/

namespace FFTW
open Tensor

/-- `problem_dft`, dft/dft.h:32-37 -/
structure DftP where
  sz : List Dim
  vecsz : Tensor
  ri : Ptr
  ii : Ptr
  ro : Ptr
  io : Ptr

/-- `problem_rdft`, rdft/rdft.h:32-44; kinds are stored with their dimension -/
structure RdftP where
  sz : List (Dim × RKind)
  vecsz : Tensor
  I : Ptr
  O : Ptr

/-- `problem_rdft2`, rdft/rdft.h:117-124 -/
structure Rdft2P where
  sz : List Dim
  vecsz : Tensor
  r0 : Ptr
  r1 : Ptr
  cr : Ptr
  ci : Ptr
  kind : Spec.R2Kind

/-- the problem kinds (`PROBLEM_DFT`, `PROBLEM_RDFT`, `PROBLEM_RDFT2`, `PROBLEM_UNSOLVABLE`), kernel/ifftw.h.  `rdft2s` is an `rdft2` problem
whose kind is `R2HCII` (where `p.kind` is `R2HC`) or `HC2RIII` (where it is `HC2R`). -/
inductive Problem
  | dft (p : DftP)
  | rdft (p : RdftP)
  | rdft2 (p : Rdft2P)
  | rdft2s (p : Rdft2P)
  | unsolvable

section
variable [CLib]

/-- `X(mkproblem_dft)`, dft/problem.c:85-121 -/
def mkproblemDft (sz : List Dim) (vecsz : Tensor) (ri ii ro io : Ptr) : Problem :=
  if (ri = ro ∨ ii = io) ∧ (ri ≠ ro ∨ ii ≠ io ∨ inplaceLocations (some sz) vecsz = false) then .unsolvable
  else .dft { sz := compress sz, vecsz := compressContiguous vecsz, ri, ii, ro, io }

/-- `REODFT_KINDP`, rdft/codelet-rdft.h:64 -/
def RKind.reodft : RKind → Bool
  | .REDFT00 | .REDFT01 | .REDFT10 | .REDFT11 | .RODFT00 | .RODFT01 | .RODFT10 | .RODFT11 => true
  | _ => false

/-- `nontrivial`, rdft/problem.c:131-135 -/
def nontrivial (e : Dim × RKind) : Bool :=
  decide (e.1.n > 1) || decide (e.2 = .R2HC11) || decide (e.2 = .HC2R11)
    || (e.2.reodft && decide (e.2 ≠ .REDFT01) && decide (e.2 ≠ .RODFT01))

/-- inner loop of the sort in `X(mkproblem_rdft)`, rdft/problem.c:183-196: `a` is `dims[i]`, the list is `dims[i+1..]`;
returns the new `dims[i]` and the new tail -/
def exchange (a : Dim × RKind) : List (Dim × RKind) → (Dim × RKind) × List (Dim × RKind)
  | [] => (a, [])
  | b :: l =>
    if dimcmp a.1 b.1 > 0 then let r := exchange b l; (r.1, a :: r.2)
    else let r := exchange a l; (r.1, b :: r.2)

omit [CLib] in
theorem exchange_length (a : Dim × RKind) (l : List (Dim × RKind)) : (exchange a l).2.length = l.length := by
  induction l generalizing a with
  | nil => rfl
  | cons b l ih => unfold exchange; split <;> simp [ih]

/-- the sort in `X(mkproblem_rdft)`, rdft/problem.c:183-196 -/
def exchangeSort : List (Dim × RKind) → List (Dim × RKind)
  | [] => []
  | a :: l => (exchange a l).1 :: exchangeSort (exchange a l).2
termination_by l => l.length
decreasing_by simp [exchange_length]

/-- size-2 transforms are equivalent, rdft/problem.c:198-202 -/
def kind2 (e : Dim × RKind) : Dim × RKind :=
  if e.1.n = 2 ∧ (e.2 = .REDFT00 ∨ e.2 = .DHT ∨ e.2 = .HC2R00) then (e.1, .R2HC00) else e

/-- `X(mkproblem_rdft)`, rdft/problem.c:137-211 -/
def mkproblemRdft (sz : List (Dim × RKind)) (vecsz : Tensor) (I O : Ptr) : Problem :=
  if I = O ∧ inplaceLocations (some (sz.map Prod.fst)) vecsz = false then .unsolvable
  else .rdft { sz := (exchangeSort (sz.filter nontrivial)).map kind2, vecsz := compressContiguous vecsz, I, O }

/-- the last dimension of a real-to-complex transform; a transform without dimensions has one row of length 1 -/
def lastDim (sz : List Dim) : Dim := sz.getLast?.getD ⟨1, 0, 0⟩

/-- the dimensions stored by `X(mkproblem_rdft2)`, rdft/problem2.c:168-180: all but the last are compressed separately -/
def rdft2Sz (sz : List Dim) : List Dim :=
  if sz.length > 1 then
    let szcc := compress sz.dropLast
    if szcc.length > 0 then szcc ++ [lastDim sz] else compress [lastDim sz]
  else compress sz

/-- `X(mkproblem_rdft2)`, rdft/problem2.c:145-191 -/
def mkproblemRdft2 (sz : List Dim) (vecsz : Tensor) (r0 r1 cr ci : Ptr) (kind : Spec.R2Kind) : Problem :=
  if r0 = ci then .unsolvable
  else .rdft2 { sz := rdft2Sz sz, vecsz := compressContiguous vecsz, r0, r1, cr, ci, kind }

/-- the same for the kinds `R2HCII` and `HC2RIII` -/
def mkproblemRdft2s (sz : List Dim) (vecsz : Tensor) (r0 r1 cr ci : Ptr) (kind : Spec.R2Kind) : Problem :=
  if r0 = ci then .unsolvable
  else .rdft2s { sz := rdft2Sz sz, vecsz := compressContiguous vecsz, r0, r1, cr, ci, kind }

/-- `X(mkproblem_rdft2_d_3pointers)`, rdft/problem2.c:204-224: the real stride of the last dimension is doubled -/
def mkproblemRdft2_3pointers (sz : List Dim) (vecsz : Tensor) (r0 cr ci : Ptr) (kind : Spec.R2Kind) : Problem :=
  match sz.getLast? with
  | none => mkproblemRdft2 sz vecsz r0 r0 cr ci kind
  | some d =>
    match kind with
    | .R2HC => mkproblemRdft2 (sz.dropLast ++ [⟨d.n, d.is * 2, d.os⟩]) vecsz r0 (r0 + d.is) cr ci kind
    | .HC2R => mkproblemRdft2 (sz.dropLast ++ [⟨d.n, d.is, d.os * 2⟩]) vecsz r0 (r0 + d.os) cr ci kind

end

/-- `apply` of an awake plan: `plan_dft` (dft/dft.h:55-60), `plan_rdft` (rdft/rdft.h:63-68), `plan_rdft2` (rdft/rdft.h:144-149) -/
inductive Plan
  | dft (apply : Ptr → Ptr → Ptr → Ptr → State → State)
  | rdft (apply : Ptr → Ptr → State → State)
  | rdft2 (apply : Ptr → Ptr → Ptr → Ptr → State → State)

/-- `((plan_dft *) cld)->apply` -/
def Plan.dftApply : Plan → Ptr → Ptr → Ptr → Ptr → State → State
  | .dft f => f
  | _ => fun _ _ _ _ st => st            -- cannot happen: a dft problem gets a plan_dft
/-- `((plan_rdft *) cld)->apply` -/
def Plan.rdftApply : Plan → Ptr → Ptr → State → State
  | .rdft f => f
  | _ => fun _ _ st => st                -- cannot happen
/-- `((plan_rdft2 *) cld)->apply`: arguments `r0`, `r1`, `cr`, `ci` -/
def Plan.rdft2Apply : Plan → Ptr → Ptr → Ptr → Ptr → State → State
  | .rdft2 f => f
  | _ => fun _ _ _ _ st => st            -- cannot happen

/-- the part of `planner.flags` and `planner.nthr` a solver can see, kernel/ifftw.h:618-635, 726-770 -/
structure Flags where
  l : BitVec 20
  u : BitVec 20
  tli : BitVec 9
  nthr : ℕ
  deriving DecidableEq

/-- `NO_DESTROY_INPUT`, kernel/ifftw.h:659 -/
def NO_DESTROY_INPUT : BitVec 20 := 0x1000
/-- `NO_BUFFERING`, kernel/ifftw.h:657 -/
def NO_BUFFERING : BitVec 20 := 0x400
/-- `NO_SLOW`, kernel/ifftw.h:650 -/
def NO_SLOW : BitVec 20 := 0x8

/-- `NO_DESTROY_INPUTP(plnr)`, kernel/ifftw.h:695 -/
def Flags.nd (fl : Flags) : Bool := decide (fl.l &&& NO_DESTROY_INPUT ≠ 0)

/-- arguments `l_set`, `u_set`, `u_reset` of `X(mkplan_f_d)`; `nthr`: an assignment `plnr->nthr = n` made just before the
call (threads/dft-vrank-geq1.c:131 and others), which stays in force until the solver returns -/
structure FMod where
  lset : BitVec 20 := 0
  uset : BitVec 20 := 0
  ureset : BitVec 20 := 0
  nthr : Option ℕ := none

/-- flag changes of `X(mkplan_f_d)`, kernel/planner.c:982-985; `X(mkplan_d)` is the case of no change -/
def Flags.modify (fl : Flags) (m : FMod) : Flags :=
  { fl with l := (fl.l &&& ~~~ m.ureset) ||| m.lset, u := (fl.u &&& ~~~ m.ureset) ||| (m.uset ||| m.lset), nthr := m.nthr.getD fl.nthr }

/-- A solver's `mkplan` is a program that may ask the planner for child plans (`X(mkplan_d)`, `X(mkplan_f_d)`), any
number of times, and sees whether it got one. -/
inductive Mk (α : Type)
  | ret (a : α)
  | plan (p : Problem) (m : FMod) (k : Option Plan → Mk α)

/-- sequencing -/
def Mk.bind {α β : Type} : Mk α → (α → Mk β) → Mk β
  | .ret a, g => g a
  | .plan p m k, g => .plan p m fun r => (k r).bind g

/-- `return (plan *) 0;` -/
def Mk.nada {α : Type} : Mk (Option α) := .ret none

/-- `cld = X(mkplan_f_d)(plnr, p, m); if (!cld) goto nada; ...` -/
def Mk.need {α : Type} (p : Problem) (m : FMod) (k : Plan → Mk (Option α)) : Mk (Option α) :=
  .plan p m fun r => match r with
    | none => .ret none
    | some c => k c

/-- a solver: its `mkplan` (kernel/ifftw.h:586-590); a problem of another kind than its `problem_kind` is answered by 0 -/
structure Solver where
  mkplan : Problem → Flags → Mk (Option Plan)

end FFTW
