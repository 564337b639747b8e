import Mathlib.Data.List.Basic
import Mathlib.Logic.Function.Basic

/-!
# Lifetime of plans: `api/apiplan.c`, `kernel/plan.c`

Memory objects are addresses; `none` as a result is a use of freed memory or a failed assertion.  The hooks (locking) are not modelled.
The apiplan, its plan and its problem are the objects of interest; the inner structure of the plan is not modelled here.
-/

namespace FFTW.Refcount

abbrev Addr := ℕ

/-- `apiplan`, api/api.h:62-67, without `sign`; `refcount` is `size_t` (64 bits) -/
structure Obj where
  pln : Addr
  prb : Addr
  refcount : BitVec 64

/-- what happens to the objects, in the order it happens -/
inductive Ev
  | awakePlan (pl : Addr)
  | sleepPlan (pl : Addr)
  | destroyPlan (pl : Addr)
  | destroyProblem (pr : Addr)
  | freeApi (a : Addr)
  | run (pl : Addr)
  deriving DecidableEq

/-- allocated objects (`plans`: whether awake) and the log, latest event first -/
structure Heap where
  apis : Addr → Option Obj
  plans : Addr → Option Bool
  probs : Addr → Bool
  log : List Ev

/-- `X(plan_awake)(ego, wakefulness)`, kernel/plan.c:61-70; `w` is `wakefulness != SLEEPY`; the assertion demands a change -/
def planAwake (pl : Addr) (w : Bool) (h : Heap) : Option Heap :=
  match h.plans pl with
  | none => none
  | some w0 =>
    if w = w0 then none
    else some { h with plans := Function.update h.plans pl (some w), log := (if w then .awakePlan pl else .sleepPlan pl) :: h.log }

/-- `X(plan_destroy_internal)`, kernel/plan.c:46-53 -/
def planDestroy (pl : Addr) (h : Heap) : Option Heap :=
  match h.plans pl with
  | some false => some { h with plans := Function.update h.plans pl none, log := .destroyPlan pl :: h.log }
  | _ => none

/-- `X(problem_destroy)`, kernel/problem.c:36-40 -/
def problemDestroy (pr : Addr) (h : Heap) : Option Heap :=
  if h.probs pr then some { h with probs := Function.update h.probs pr false, log := .destroyProblem pr :: h.log } else none

/-- `X(ifree)(p)` of an apiplan -/
def freeApi (a : Addr) (h : Heap) : Option Heap :=
  match h.apis a with
  | none => none
  | some _ => some { h with apis := Function.update h.apis a none, log := .freeApi a :: h.log }

/-- the successful end of `X(mkapiplan)`, api/apiplan.c:139-156: `a`, `pl`, `pr` are the addresses of the apiplan, of the plan made (asleep,
kernel/plan.c:27-40) and of the problem -/
def create (a pl pr : Addr) (h : Heap) : Option Heap :=
  planAwake pl true { h with apis := Function.update h.apis a (some ⟨pl, pr, 1⟩), plans := Function.update h.plans pl (some false), probs := Function.update h.probs pr true }

/-- `X(copy_plan)`, api/apiplan.c:169-181 (not null) -/
def copy (a : Addr) (h : Heap) : Option Heap :=
  match h.apis a with
  | none => none
  | some o => some { h with apis := Function.update h.apis a (some { o with refcount := o.refcount + 1 }) }

/-- `X(destroy_plan)`, api/apiplan.c:183-199 (not null) -/
def destroy (a : Addr) (h : Heap) : Option Heap :=
  match h.apis a with
  | none => none
  | some o =>
    let h := { h with apis := Function.update h.apis a (some { o with refcount := o.refcount - 1 }) }
    if o.refcount = 1 then do
      let h ← planAwake o.pln false h
      let h ← planDestroy o.pln h
      let h ← problemDestroy o.prb h
      freeApi a h
    else some h

/-- `X(execute)`, api/execute.c:23-27: the plan must be there and awake -/
def execute (a : Addr) (h : Heap) : Option Heap :=
  match h.apis a with
  | none => none
  | some o =>
    match h.plans o.pln with
    | some true => if h.probs o.prb then some { h with log := .run o.pln :: h.log } else none
    | _ => none

/-- calls of the API; `copyNull` and `destroyNull`: the argument is a null pointer -/
inductive Op
  | create (a pl pr : Addr)
  | copy (a : Addr)
  | destroy (a : Addr)
  | execute (a : Addr)
  | copyNull
  | destroyNull

def step (op : Op) (h : Heap) : Option Heap :=
  match op with
  | .create a pl pr => create a pl pr h
  | .copy a => copy a h
  | .destroy a => destroy a h
  | .execute a => execute a h
  | .copyNull => some h
  | .destroyNull => some h

end FFTW.Refcount
