import Verif.Model.Problem
import Verif.Model.Htab
import Verif.Model.MapFlags

/-!
# `kernel/planner.c` — searching, and `api/apiplan.c`

`Err.ub` marks undefined behaviour (a table index out of range, a null dereference), `Err.mem` a table of more than 2^31
entries (outside the range of `unsigned` sizes), `Err.fuel` that the recursion was cut off.  What depends on the clock, on
measurements or on hooks is read from an arbitrary `World`: position `tick` advances at every use, so successive uses get
unrelated answers.  Finite `double`s are integers here, in units of 2^-1074; not-a-number does not occur.
-/

namespace FFTW.Planner

/-- why a run has no result -/
inductive Err
  | ub
  | fuel
  | mem
  /-- a failed `CK`, kernel/assert.c: the process is aborted -/
  | abort
  deriving DecidableEq

/-- result of a planner function -/
abbrev Res (α : Type) := Except Err α

/-- problem kinds that have solvers -/
inductive PKind
  | dft
  | rdft
  | rdft2
  | none
  deriving DecidableEq

/-- `p->adt->problem_kind` -/
def kindOf : Problem → PKind
  | .dft _ => .dft
  | .rdft _ => .rdft
  | .rdft2 _ => .rdft2
  | .rdft2s _ => .rdft2
  | .unsolvable => .none

/-- `slvdesc`, kernel/ifftw.h:607-613 (`nam_hash` and the links are computed from the others) -/
structure SlvDesc where
  slv : Solver
  kind : PKind
  regNam : List UInt8
  regId : Int

/-- `wisdom_state_t`, kernel/ifftw.h:698-713 -/
inductive WState
  | normal
  | only
  | bogus
  | ignoreInfeasible
  | ignoreAll
  deriving DecidableEq

/-- answers of the outside world -/
structure World where
  /-- `ego->timelimit >= 0 && elapsed_since(...) >= ego->timelimit` -/
  late : ℕ → Bool
  /-- the measured (or estimated) cost -/
  cost : ℕ → Int
  /-- a cycle counter is available -/
  timer : ℕ → Bool
  /-- `pln->pcost` as set by the solver -/
  pcost0 : ℕ → Int
  /-- `pln->could_prune_now_p` -/
  prune : ℕ → Bool
  /-- `wisdom_ok_hook` (constantly true when there is none) -/
  wisdomOk : ℕ → Problem → FlagsT → Bool
  /-- `bogosity_hook` turns the wisdom state into WISDOM_IS_BOGUS (constantly false when there is no hook).  The only hook
  in the code, mpi/api.c:123-130, returns WISDOM_IS_BOGUS or its argument. -/
  bogosity : ℕ → Problem → Bool

/-- fixed data: the registered solvers, the signature function (`md5hash`, kernel/planner.c:185-194: size of `R`,
`nthr`, problem), the outside world -/
structure Env where
  slvdescs : List SlvDesc
  sigOf : Problem → ℕ → MSig
  world : World

/-- `planner`, kernel/ifftw.h:735-790 -/
structure PSt where
  blessed : HTab
  unblessed : HTab
  flags : FlagsT
  nthr : ℕ
  wstate : WState
  timedOut : Bool
  needCheck : Bool
  nplan : ℕ
  nprob : ℕ
  tick : ℕ
  /-- how often a plan was run in order to measure it, kernel/timer.c:130-168 (this zeroes the user's arrays and computes on them); not a field of
  `planner`, but what the caller sees of measurements -/
  runs : ℕ

/-- kernel/ifftw.h:647 -/ def BELIEVE_PCOST : BitVec 20 := 0x1
/-- kernel/ifftw.h:648 -/ def ESTIMATE : BitVec 20 := 0x2
/-- kernel/ifftw.h:664 -/ def ALLOW_PRUNING : BitVec 20 := 0x20000

/-- `ESTIMATEP`, kernel/ifftw.h:678 -/
def PSt.estimatep (st : PSt) : Bool := decide (st.flags.u &&& ESTIMATE ≠ 0)
/-- `BELIEVE_PCOSTP`, kernel/ifftw.h:679 -/
def PSt.believep (st : PSt) : Bool := decide (st.flags.u &&& BELIEVE_PCOST ≠ 0)
/-- `ALLOW_PRUNINGP`, kernel/ifftw.h:680 -/
def PSt.pruningp (st : PSt) : Bool := decide (st.flags.u &&& ALLOW_PRUNING ≠ 0)

/-- what a solver sees of the planner -/
def PSt.seen (st : PSt) : Flags := ⟨st.flags.l, st.flags.u, st.flags.tli, st.nthr⟩

/-- lift the table operations -/
def ofOpt {α : Type} : Option α → Res α
  | some a => .ok a
  | none => .error .ub

/-- `hlookup`, kernel/planner.c:246-252 -/
def hlookup (st : PSt) (s : MSig) (f : FlagsT) : Res (Option Slot) := do
  match ← ofOpt (htabLookup st.blessed s f) with
  | some sol => pure (some sol)
  | none => ofOpt (htabLookup st.unblessed s f)

/-- `hinsert`, kernel/planner.c:391-396 -/
def hinsert (st : PSt) (s : MSig) (f : FlagsT) (slvndx : BitVec 12) : Res PSt := do
  if bliss f ≠ 0 then
    if st.blessed.nelem ≥ 2 ^ 31 then .error .mem else
    let t ← ofOpt (htabInsert st.blessed s f slvndx)
    pure { st with blessed := t }
  else
    if st.unblessed.nelem ≥ 2 ^ 31 then .error .mem else
    let t ← ofOpt (htabInsert st.unblessed s f slvndx)
    pure { st with unblessed := t }

/-- a plan with the fields the planner looks at, kernel/ifftw.h:560-570 -/
structure BPlan where
  pl : Plan
  pcost : Int
  prune : Bool

/-- `evaluate_plan`, kernel/planner.c:444-474 (the hook only observes) -/
def evaluatePlan (env : Env) (b : BPlan) (st : PSt) : BPlan × PSt :=
  if st.estimatep || !st.believep || decide (b.pcost = 0) then
    ({ b with pcost := env.world.cost st.tick },
     { st with nplan := st.nplan + 1, tick := st.tick + 1
               needCheck := if !st.estimatep && env.world.timer st.tick then true else st.needCheck
               runs := if !st.estimatep && env.world.timer st.tick then st.runs + 1 else st.runs })
  else (b, st)

/-- the planner as a function: `ego->adt->mkplan` -/
abbrev Rec := Problem → PSt → Res (Option Plan × PSt)

/-- `X(mkplan_d)`, `X(mkplan_f_d)`, kernel/planner.c:964-990; `X(mkplan_d)` is used when no flag changes are asked for -/
def mkplanFD (rec : Rec) (p : Problem) (m : FMod) (st : PSt) : Res (Option Plan × PSt) :=
  let st := { st with nthr := m.nthr.getD st.nthr }
  if m.lset = 0 ∧ m.uset = 0 ∧ m.ureset = 0 then rec p st
  else do
    let oflags := st.flags
    let r ← rec p { st with flags := { oflags with
      l := (oflags.l &&& ~~~ m.ureset) ||| m.lset
      u := (oflags.u &&& ~~~ m.ureset) ||| (m.uset ||| m.lset) } }
    pure (r.1, { r.2 with flags := oflags })

/-- run a solver's `mkplan` -/
def runMk (rec : Rec) {α : Type} : Mk α → PSt → Res (α × PSt)
  | .ret a, st => .ok (a, st)
  | .plan p m k, st =>
    match mkplanFD rec p m st with
    | .error e => .error e
    | .ok (r, st) => runMk rec (k r) st

/-- `invoke_solver`, kernel/planner.c:477-490 -/
def invokeSolver (rec : Rec) (env : Env) (p : Problem) (s : Solver) (nflags : FlagsT) (st : PSt) : Res (Option BPlan × PSt) := do
  let flags := st.flags
  let nthr := st.nthr
  let st := { st with flags := { nflags with tli := 0 } }
  let r ← runMk rec (s.mkplan p st.seen) st
  let st := r.2
  pure (r.1.map fun pl => { pl, pcost := env.world.pcost0 st.tick, prune := env.world.prune st.tick },
    { st with nthr := nthr, flags := flags, tick := st.tick + 1 })

/-- `timeout_p`, kernel/planner.c:493-518 -/
def timeoutP (env : Env) (st : PSt) : Bool × PSt :=
  if !st.estimatep then
    if st.timedOut then (true, st)
    else if env.world.late st.tick then (true, { st with timedOut := true, needCheck := true, tick := st.tick + 1 })
    else (false, { st with needCheck := false, tick := st.tick + 1 })
  else (false, { st with needCheck := false })

/-- what `search0` hands back: the plan and its `*slvndx` -/
abbrev Found := Option (BPlan × ℕ)

/-- one more candidate, kernel/planner.c:546-566 -/
def consider (env : Env) (best : Found) (notTimed : Bool) (pln : BPlan) (i : ℕ) (st : PSt) : (BPlan × ℕ) × Bool × PSt :=
  match best with
  | none => ((pln, i), notTimed, st)
  | some (b, j) =>
    let (b, st) := if notTimed then evaluatePlan env b st else (b, st)
    let (pln, st) := evaluatePlan env pln st
    if pln.pcost < b.pcost then ((pln, i), false, st) else ((b, j), false, st)

/-- the loop of `search0`, kernel/planner.c:532-570, over the indices of the solvers still to be tried -/
def search0Loop (rec : Rec) (env : Env) (p : Problem) (flagsp : FlagsT) : List ℕ → Found → Bool → PSt → Res (Found × PSt)
  | [], best, _, st => .ok (best, st)
  | i :: rest, best, notTimed, st =>
    match env.slvdescs[i]? with
    | none => .error .ub
    | some d =>
      match invokeSolver rec env p d.slv flagsp st with
      | .error e => .error e
      | .ok (pln, st) =>
        let (late, st) := if st.needCheck then timeoutP env st else (false, st)
        if late then .ok (none, st)
        else
          match pln with
          | none => search0Loop rec env p flagsp rest best notTimed st
          | some pln =>
            let r := consider env best notTimed pln i st
            if r.2.2.pruningp && pln.prune then .ok (some r.1, r.2.2)
            else search0Loop rec env p flagsp rest (some r.1) r.2.1 r.2.2

/-- the solvers visited by `FORALL_SOLVERS_OF_KIND` (kernel/ifftw.h:812-821): the list is linked from the most recently
registered one backwards, kernel/planner.c:117-119 -/
def solversOfKind (env : Env) (k : PKind) : List ℕ :=
  (List.range env.slvdescs.length).reverse.filter fun i => decide (env.slvdescs[i]?.map SlvDesc.kind = some k)

/-- `search0`, kernel/planner.c:520-573 -/
def search0 (rec : Rec) (env : Env) (p : Problem) (flagsp : FlagsT) (st : PSt) : Res (Found × PSt) :=
  let (late, st) := timeoutP env st
  if late then .ok (none, st)
  else search0Loop rec env p flagsp (solversOfKind env (kindOf p)) none true st

/-- `relax_tab`, kernel/planner.c:582-588 -/
def relaxTab : List (BitVec 20) := [0, 0x10, 0x800, 0x8, 0x10000]

/-- the loop of `search`, kernel/planner.c:596-607; returns also `flagsp` and `last_x` -/
def searchLoop (rec : Rec) (env : Env) (p : Problem) (lorig : BitVec 20) :
    List (BitVec 20) → (x : BitVec 20) → (lastX : Option (BitVec 20)) → FlagsT → PSt → Res (Found × FlagsT × Option (BitVec 20) × PSt)
  | [], _, lastX, f, st => .ok (none, f, lastX, st)
  | r :: rest, x, lastX, f, st =>
    let x := if LEQ lorig (x &&& ~~~ r) then x &&& ~~~ r else x
    if lastX ≠ some x then
      let f := { f with l := x }
      match search0 rec env p f st with
      | .error e => .error e
      | .ok (some b, st) => .ok (some b, f, some x, st)
      | .ok (none, st) => searchLoop rec env p lorig rest x (some x) f st
    else searchLoop rec env p lorig rest x lastX f st

/-- `search`, kernel/planner.c:575-620.  `last_x = ~x` on 32-bit variables differs from every 20-bit `x`; it is `none` here. -/
def search (rec : Rec) (env : Env) (p : Problem) (f : FlagsT) (st : PSt) : Res (Found × FlagsT × PSt) := do
  let lorig := f.l
  let (b, f, lastX, st) ← searchLoop rec env p lorig relaxTab f.u none f st
  match b with
  | some b => pure (some b, f, st)
  | none =>
    if lastX ≠ some lorig then
      let f := { f with l := lorig }
      let (b, st) ← search0 rec env p f st
      pure (b, f, st)
    else pure (none, f, st)

/-- `CHECK_FOR_BOGOSITY`, kernel/planner.c:622-626 -/
def checkBogosity (env : Env) (p : Problem) (st : PSt) : Bool × PSt :=
  let w := if env.world.bogosity st.tick p then .bogus else st.wstate
  (decide (w = .bogus), { st with wstate := w, tick := st.tick + 1 })

/-- the label `wisdom_is_bogus`, kernel/planner.c:741-744 -/
def bogusExit (st : PSt) : Res (Option Plan × PSt) := .ok (none, { st with wstate := .bogus })

/-- the `slvndx` argument of `hinsert`, kernel/planner.c:731-735 -/
def slvndxOf : Option (Plan × ℕ) → BitVec 12
  | some (_, i) => BitVec.ofNat 12 i
  | none => INFEASIBLE_SLVNDX

/-- the label `skip_search`, kernel/planner.c:727-739 -/
def skipSearch (m : MSig) (f : FlagsT) (b : Option (Plan × ℕ)) (st : PSt) : Res (Option Plan × PSt) :=
  if st.wstate = .normal ∨ st.wstate = .only then do
    let st ← hinsert st m f (slvndxOf b)
    pure (b.map Prod.fst, st)
  else pure (b.map Prod.fst, st)

/-- the label `do_search`, kernel/planner.c:699-725 -/
def doSearch (rec : Rec) (env : Env) (p : Problem) (m : MSig) (st : PSt) : Res (Option Plan × PSt) :=
  if st.wstate = .only then bogusExit st
  else
    match search rec env p st.flags st with
    | .error e => .error e
    | .ok (b, f, st) =>
      let (bog, st) := checkBogosity env p st
      if bog then bogusExit st
      else if st.timedOut then
        if st.flags.tli ≠ 0 then skipSearch m { f with hi := f.hi ||| BLESSING } (b.map fun x => (x.1.pl, x.2)) st
        else .ok (none, st)
      else skipSearch m { f with tli := 0 } (b.map fun x => (x.1.pl, x.2)) st

/-- use of wisdom found in a table, kernel/planner.c:657-693 -/
def useWisdom (rec : Rec) (env : Env) (p : Problem) (m : MSig) (sol : Slot) (st : PSt) : Res (Option Plan × PSt) :=
  let owisdom := st.wstate
  let ok := env.world.wisdomOk st.tick p sol.fl
  let st := { st with tick := st.tick + 1 }
  if !ok then doSearch rec env p m st
  else if sol.slvndx = INFEASIBLE_SLVNDX then
    if st.wstate = .ignoreInfeasible then doSearch rec env p m st else .ok (none, st)
  else
    let f := { sol.fl with hi := sol.fl.hi ||| bliss st.flags }
    let st := { st with wstate := .only }
    match env.slvdescs[sol.slvndx.toNat]? with
    | none => .error .ub
    | some d =>
      if kindOf p ≠ d.kind then bogusExit st
      else
        match invokeSolver rec env p d.slv f st with
        | .error e => .error e
        | .ok (pln, st) =>
          let (bog, st) := checkBogosity env p st
          if bog then bogusExit st
          else
            match pln with
            | none => bogusExit st
            | some b => skipSearch m f (some (b.pl, sol.slvndx.toNat)) { st with wstate := owisdom }

/-- `mkplan`, kernel/planner.c:628-745 -/
def mkplanBody (rec : Rec) (env : Env) (p : Problem) (st : PSt) : Res (Option Plan × PSt) :=
  let st := if st.estimatep then { st with flags := { st.flags with tli := 0 } } else st
  let (bog, st) := checkBogosity env p st
  if bog then bogusExit st
  else
    let st := { st with timedOut := false, nprob := st.nprob + 1 }
    let m := env.sigOf p st.nthr
    if st.wstate ≠ .ignoreAll then
      match hlookup st m st.flags with
      | .error e => .error e
      | .ok (some sol) => useWisdom rec env p m sol st
      | .ok none => doSearch rec env p m st
    else doSearch rec env p m st

/-- `mkplan` with recursion depth at most `n` -/
def mkplan (env : Env) : ℕ → Rec
  | 0 => fun _ _ => .error .fuel
  | n + 1 => mkplanBody (mkplan env n) env

/-- `forget` -/
inductive Amnesia
  | accursed
  | everything

/-- `forget`, kernel/planner.c:769-784 -/
def forget (st : PSt) (a : Amnesia) : Res PSt := do
  let st ← match a with
    | .everything => do
      let t ← ofOpt mkhashtab
      pure { st with blessed := t }
    | .accursed => pure st
  let t ← ofOpt mkhashtab
  pure { st with unblessed := t }

/-! ### api/apiplan.c -/
open MapFlags (U32 FFTW_ESTIMATE FFTW_PATIENT FFTW_EXHAUSTIVE)

/-- api/fftw3.h:495 -/ def FFTW_MEASURE : U32 := 0
/-- api/fftw3.h:503 -/ def FFTW_WISDOM_ONLY : U32 := 1#32 <<< 21

/-- `mkplan0`, api/apiplan.c:31-43 -/
noncomputable def mkplan0 (env : Env) (n : ℕ) (tl : ℝ) (flags : U32) (p : Problem) (hi : BitVec 3) (w : WState) (st : PSt) : Res (Option Plan × PSt) := do
  let f ← ofOpt (MapFlags.mapflags tl flags)
  mkplan env n p { st with flags := ⟨f.l, f.u, f.tli, hi⟩, wstate := w }

/-- `force_estimator`, api/apiplan.c:45-49 -/
def forceEstimator (flags : U32) : U32 := (flags &&& ~~~ (FFTW_MEASURE ||| FFTW_PATIENT ||| FFTW_EXHAUSTIVE)) ||| FFTW_ESTIMATE

/-- the case of inconsistent wisdom in `mkplan`, api/apiplan.c:68-81 -/
noncomputable def retryBogus (env : Env) (n : ℕ) (tl : ℝ) (flags : U32) (p : Problem) (hi : BitVec 3) (pln : Option Plan) (st : PSt) : Res (Option Plan × PSt) :=
  if st.wstate = .bogus then do
    let st ← forget st .everything
    let r ← mkplan0 env n tl flags p hi .normal st
    if r.2.wstate = .bogus then
      let st ← forget r.2 .everything
      mkplan0 env n tl (forceEstimator flags) p hi .ignoreAll st
    else pure r
  else pure (pln, st)

/-- `mkplan`, api/apiplan.c:51-84 -/
noncomputable def apiMkplan (env : Env) (n : ℕ) (tl : ℝ) (flags : U32) (p : Problem) (hi : BitVec 3) (st : PSt) : Res (Option Plan × PSt) := do
  let r ← mkplan0 env n tl flags p hi .normal st
  let r ← if r.2.wstate = .normal ∧ r.1.isNone then mkplan0 env n tl (forceEstimator flags) p hi .ignoreInfeasible r.2 else pure r
  retryBogus env n tl flags p hi r.1 r.2

/-- the loop of `X(mkapiplan)`, api/apiplan.c:119-135, over the values of `pats` still to be tried; returns `pln` and
`flags_used_for_planning` -/
noncomputable def patLoop (env : Env) (n : ℕ) (tl : ℝ) (flags : U32) (p : Problem) : List U32 → Option Plan → U32 → PSt → Res (Option Plan × U32 × PSt)
  | [], pln, used, st => .ok (pln, used, st)
  | pat :: rest, pln, used, st =>
    match apiMkplan env n tl (flags ||| pat) p 0 st with
    | .error e => .error e
    | .ok (none, st) => .ok (pln, used, st)
    | .ok (some pln1, st) => patLoop env n tl flags p rest (some pln1) (flags ||| pat) st

/-- the patience levels tried, api/apiplan.c:107-119 -/
noncomputable def patLevels (tl : ℝ) (flags : U32) : List U32 :=
  let patMax := if flags &&& FFTW_ESTIMATE ≠ 0 then 0 else if flags &&& FFTW_EXHAUSTIVE ≠ 0 then 3 else if flags &&& FFTW_PATIENT ≠ 0 then 2 else 1
  let pat := open Classical in if tl ≥ 0 then 0 else patMax
  ([FFTW_ESTIMATE, FFTW_MEASURE, FFTW_PATIENT, FFTW_EXHAUSTIVE].take (patMax + 1)).drop pat

/-- the plan found first, with the flags used for it, api/apiplan.c:98-137 -/
noncomputable def firstPlan (env : Env) (n : ℕ) (tl : ℝ) (flags : U32) (p : Problem) (st : PSt) : Res (Option Plan × U32 × PSt) :=
  if flags &&& FFTW_WISDOM_ONLY ≠ 0 then do
    let r ← mkplan0 env n tl flags p 0 .only st
    pure (r.1, flags, r.2)
  else patLoop env n tl (flags &&& ~~~ (FFTW_ESTIMATE ||| FFTW_MEASURE ||| FFTW_PATIENT ||| FFTW_EXHAUSTIVE)) p (patLevels tl flags) none 0 st

/-- re-creation of a plan that was found, from wisdom, blessing the wisdom; api/apiplan.c:139-160 -/
noncomputable def recreate (env : Env) (n : ℕ) (tl : ℝ) (p : Problem) (pln : Option Plan) (used : U32) (st : PSt) : Res (Option Plan × PSt) :=
  match pln with
  | some _ => do
    let r ← apiMkplan env n tl used p BLESSING st
    if r.1.isNone then .error .ub else pure r
  | none => pure (none, st)

/-- `X(mkapiplan)`, api/apiplan.c:86-167: the plan stored in the `apiplan` (hooks and the problem's ownership are not
modelled).  A null `p->pln` is dereferenced at line 148. -/
noncomputable def mkapiplan (env : Env) (n : ℕ) (tl : ℝ) (flags : U32) (p : Problem) (st : PSt) : Res (Option Plan × PSt) := do
  let r ← firstPlan env n tl flags p st
  let r ← recreate env n tl p r.1 r.2.1 r.2.2
  let st ← forget r.2 .accursed
  pure (r.1, st)

end FFTW.Planner
