import Verif.Model.Mpi
import Verif.Model.Planner

/-!
# The planner for MPI problems: kernel/planner.c and kernel/timer.c with the hooks of mpi/api.c:33-131

All processes of a communicator `c` run the same planner on the same MPI problem, each with a state of its own.  The model runs them in lock step: a function takes the states of
all processes, and a collective operation is one step of all.  Wherever the code branches in a way that determines which collective operations follow, the condition is evaluated on every process, by
its own state (`agree`), and if they differ the result is `MErr.desync`: processes would wait for each other in different operations.  Serial problems are planned by each process
on its own, with `Planner.mkplan`; processes may do this in any order, as it involves no communication (the hooks do nothing for serial problems).  Groups of processes are
planned one after the other, as they have no process in common (checked).  A plan for an MPI problem is one object for all processes, `MPlan`.

Not modelled: `invoke_hook` (it only observes), `ego->pcost`, `ego->epcost`, the debugging assertions.
-/

namespace FFTW.Mpi.MPlanner
open FFTW.Planner

/-- why planning has no result -/
inductive MErr
  /-- the processes part ways -/
  | desync
  /-- an error of one process -/
  | err (e : Err)
  deriving DecidableEq

/-- result of planning by many processes -/
abbrev MRes (α : Type) := Except MErr α

/-- the planner states of all processes -/
abbrev PSts := ℕ → PSt

/-- kinds of MPI problems -/
inductive MKind
  | transpose
  | dft
  | rdft
  deriving DecidableEq

/-- `p->adt->problem_kind` -/
def kindOf : MProblem → MKind
  | .transpose _ => .transpose
  | .dft _ => .dft
  | .rdft _ => .rdft

/-- `problem_comm`, mpi/api.c:35-48 -/
def commOf : MProblem → Comm
  | .transpose p => p.comm
  | .dft p => p.comm
  | .rdft p => p.comm

/-- fixed data.  `reg`: the MPI solvers among `ego->slvdescs`, the same in all processes (serial solvers are `none`).  `env w`: serial planning on process `w`, which has its own
answers of the outside world.  `sig`: `md5hash` of MPI problems.  `timer`: `HAVE_TICK_COUNTER`, fixed when the library is compiled; `timeMin`, `timeLimit`: `TIME_MIN`, `FFTW_TIME_LIMIT`.
Raw answers of the outside world to process `w` at its tick `t`: `cost`: the operation count, before `cost_hook`; `time`: the time measured; `elapsed`: the time elapsed since some instant.
`tl w`: the time limit set on process `w`, if nonnegative. -/
structure MEnv where
  reg : List (Option (MKind × MSolver))
  env : ℕ → Env
  sig : ℕ → MProblem → ℕ → MSig
  timer : Bool
  timeMin : Int
  timeLimit : Int
  cost : ℕ → ℕ → Int
  time : ℕ → ℕ → Int
  elapsed : ℕ → ℕ → Int
  tl : ℕ → Option Int

/-- all processes of `c` take the same branch -/
def agree {α : Type} [DecidableEq α] (c : Comm) (f : ℕ → α) : MRes α :=
  if ∀ w ∈ c, f w = f (c.at 0) then .ok (f (c.at 0)) else .error .desync

/-- every process of `c` changes its state -/
def upd (c : Comm) (f : ℕ → PSt → PSt) (sts : PSts) : PSts := fun w => if w ∈ c then f w (sts w) else sts w

/-- every process of `c` does something that may fail -/
def each {α : Type} (c : Comm) (d : ℕ → α) (f : ℕ → Res α) : MRes (ℕ → α) :=
  match c.findSome? fun w => match f w with | .error e => some e | .ok _ => none with
  | some e => .error (.err e)
  | none => .ok fun w => match f w with | .ok a => a | .error _ => d w

/-- `XM(any_true)`, mpi/any-true.c:23-28: every process learns whether the condition holds on one of them -/
def anyTrue (c : Comm) (f : ℕ → Bool) : ℕ → Bool := fun _ => c.any f

/-- `cost_hook`, mpi/api.c:54-62, with `COST_MAX`: every process gets the maximum -/
def costHook (c : Comm) (f : ℕ → Int) : ℕ → Int := fun _ => c.foldl (fun m w => max m (f w)) (f (c.at 0))

/-- one more use of the outside world -/
def ticked (c : Comm) (sts : PSts) : PSts := upd c (fun _ st => { st with tick := st.tick + 1 }) sts

/-- the loop over `repeat` of `X(measure_execution_time)`, kernel/timer.c:154-170: `none` is `goto start_over`, else `tmin` of every process -/
def repeatLoop (E : MEnv) (c : Comm) : ℕ → (first : Bool) → (ℕ → Int) → PSts → MRes (Option (ℕ → Int) × PSts)
  | 0, _, tmin, sts => .ok (some tmin, sts)
  | n + 1, first, tmin, sts => do
    let t := costHook c fun w => E.time w (sts w).tick
    let sts := ticked c sts
    if ← agree c fun w => decide (t w < 0) then pure (none, sts)
    else
      let tmin := fun w => if first || decide (t w < tmin w) then t w else tmin w
      let el := costHook c fun w => E.elapsed w (sts w).tick
      let sts := ticked c sts
      if ← agree c fun w => decide (el w > E.timeLimit) then pure (some tmin, sts)
      else repeatLoop E c n false tmin sts

/-- `X(measure_execution_time)`, kernel/timer.c:136-181.  The first argument bounds the number of attempts; `iter` is `2^k`.  (`int` overflow of `iter` is not modelled; `tmin / iter` is rounded.) -/
def measure (E : MEnv) (c : Comm) : ℕ → (k : ℕ) → PSts → MRes ((ℕ → Int) × PSts)
  | 0, _, _ => .error (.err .fuel)
  | n + 1, k, sts => do
    match ← repeatLoop E c 8 true (fun _ => 0) sts with
    | (none, sts) => measure E c n 0 sts
    | (some tmin, sts) =>
      if ← agree c fun w => decide (tmin w ≥ E.timeMin) then pure (fun w => tmin w / 2 ^ k, sts)
      else measure E c n (k + 1) sts

/-- a plan with `pcost`, which each process stores.  MPI solvers set neither `pcost` nor `could_prune_now_p`: they are 0, kernel/plan.c:32-33. -/
structure MBPlan where
  pl : MPlan
  pcost : ℕ → Int

/-- `evaluate_plan`, kernel/planner.c:444-474, with `X(iestimate_cost)`, kernel/planner.c:426-442 (`runs` is not counted) -/
def evaluatePlan (E : MEnv) (n : ℕ) (c : Comm) (b : MBPlan) (sts : PSts) : MRes (MBPlan × PSts) := do
  if ← agree c fun w => (sts w).estimatep || !(sts w).believep || decide (b.pcost w = 0) then
    let sts := upd c (fun _ st => { st with nplan := st.nplan + 1 }) sts
    if ← agree c fun w => (sts w).estimatep || !E.timer then
      pure ({ b with pcost := costHook c fun w => E.cost w (sts w).tick }, ticked c sts)
    else
      let (t, sts) ← measure E c n 0 sts
      pure ({ b with pcost := t }, upd c (fun _ st => { st with needCheck := true }) sts)
  else pure (b, sts)

/-- the planner as a function -/
abbrev MRec := MProblem → PSts → MRes (Option MPlan × PSts)

/-- `X(mkplan_f_d)`, kernel/planner.c:964-990, for an MPI problem.  (Where the code calls `X(mkplan_d)` instead, with nothing to change, restoring the flags has no effect: solvers run with no time limit
impatience.) -/
def mkplanFD (rec : MRec) (p : MProblem) (m : FMod) (sts : PSts) : MRes (Option MPlan × PSts) := do
  let sts := upd (commOf p) (fun _ st => { st with nthr := m.nthr.getD st.nthr }) sts
  let r ← rec p (upd (commOf p) (fun _ st => { st with flags := { st.flags with
    l := (st.flags.l &&& ~~~ m.ureset) ||| m.lset
    u := (st.flags.u &&& ~~~ m.ureset) ||| (m.uset ||| m.lset) } }) sts)
  pure (r.1, upd (commOf p) (fun w st => { st with flags := (sts w).flags }) r.2)

/-- the groups `n' < n` make their plans; a plan is missing in the result if the planner has not found one -/
def runGroups (rec : MRec) (p : ℕ → Option MProblem) (m : FMod) : ℕ → PSts → MRes ((ℕ → Option MPlan) × PSts)
  | 0, sts => .ok (fun _ => none, sts)
  | n + 1, sts => do
    let (r, sts) ← runGroups rec p m n sts
    match p n with
    | none => pure (r, sts)
    | some x =>
      let (f, sts) ← mkplanFD rec x m sts
      pure (fun i => if i = n then f else r i, sts)

/-- the plan `X(mkplan_f_d)` gives a process, for its serial problem, and its new state -/
def serialPlan (E : MEnv) (n : ℕ) (p : Option Problem) (m : FMod) (w : ℕ) (st : PSt) : Res (Option Plan × PSt) :=
  match p with
  | none => .ok (none, st)
  | some x => Planner.mkplanFD (Planner.mkplan (E.env w) n) x m st

/-- groups of processes are within `c` and have none in common -/
def groupsOk (c : Comm) (n : ℕ) (p : ℕ → Option MProblem) : Prop :=
  ∀ i < n, ∀ x, p i = some x → (∀ w ∈ commOf x, w ∈ c) ∧ ∀ j < i, ∀ y, p j = some y → ∀ w ∈ commOf x, w ∉ commOf y

/-- the processes of `c` run a solver's `mkplan`; serial planning has recursion depth at most `n`.  (The two conditions that give `desync` at once hold for all solvers of the
library: each process of the communicator takes part, and groups are disjoint.) -/
noncomputable def runMk (E : MEnv) (n : ℕ) (rec : MRec) (c : Comm) {α : Type} : MMk α → PSts → MRes (α × PSts)
  | .ret a, sts => .ok (a, sts)
  | .loc k p m cont, sts =>
    if k ≠ c.length then .error .desync else do
    let r ← each c (fun w => (none, sts w)) fun w => serialPlan E n (p (c.idxOf w)) m w (sts w)
    let fail ← agree c (anyTrue c fun w => (p (c.idxOf w)).isSome && (r w).1.isNone)
    runMk E n rec c (cont (if fail then none else some fun me => (r (c.at me)).1.getD (.rdft fun _ _ st => st))) (upd c (fun w _ => (r w).2) sts)
  | .grp k p m cont, sts =>
    open Classical in
    if ¬ groupsOk c k p then .error .desync else do
    let (r, sts) ← runGroups rec p m k sts
    let fail := (List.range k).any fun i => (p i).isSome && (r i).isNone
    runMk E n rec c (cont (if fail then none else some fun i => (r i).getD fun _ _ st => st)) sts

/-- `invoke_solver`, kernel/planner.c:477-490 -/
noncomputable def invokeSolver (E : MEnv) (n : ℕ) (rec : MRec) (p : MProblem) (s : MSolver) (nflags : ℕ → FlagsT) (sts : PSts) : MRes (Option MBPlan × PSts) := do
  let c := commOf p
  let sts1 := upd c (fun w st => { st with flags := { nflags w with tli := 0 } }) sts
  let seen ← agree c fun w => (sts1 w).seen
  let (pl, sts2) ← runMk E n rec c (s.mkplan p seen) sts1
  pure (pl.map fun pl => { pl, pcost := fun _ => 0 }, upd c (fun w st => { st with flags := (sts w).flags, nthr := (sts w).nthr }) sts2)

/-- `timeout_p`, kernel/planner.c:493-518, called by the processes `call`: those that are not estimating, have not timed out yet and have a time limit enter the collective operation in `X(elapsed_since)` -/
def timeoutP (E : MEnv) (c : Comm) (call : ℕ → Bool) (sts : PSts) : MRes (Bool × PSts) := do
  let coll := fun w => call w && !(sts w).estimatep && !(sts w).timedOut && (E.tl w).isSome
  if ← agree c coll then
    let el := costHook c fun w => E.elapsed w (sts w).tick
    let sts := ticked c sts
    let late := fun w => decide ((E.tl w).getD 0 ≤ el w)
    let r ← agree c late
    pure (r, upd c (fun w st => if late w then { st with timedOut := true, needCheck := true } else { st with needCheck := false }) sts)
  else
    let late := fun w => call w && !(sts w).estimatep && (sts w).timedOut
    let r ← agree c late
    pure (r, upd c (fun w st => if call w && !late w then { st with needCheck := false } else st) sts)

/-- what `search0` hands back: the plan and its `*slvndx` -/
abbrev Found := Option (MBPlan × ℕ)

/-- one more candidate, kernel/planner.c:546-566 -/
def consider (E : MEnv) (n : ℕ) (c : Comm) (best : Found) (notTimed : Bool) (pln : MBPlan) (i : ℕ) (sts : PSts) : MRes ((MBPlan × ℕ) × Bool × PSts) :=
  match best with
  | none => .ok ((pln, i), notTimed, sts)
  | some (b, j) => do
    let (b, sts) ← (if notTimed then evaluatePlan E n c b sts else .ok (b, sts))
    let (pln, sts) ← evaluatePlan E n c pln sts
    let better ← agree c fun w => decide (pln.pcost w < b.pcost w)
    pure (if better then (pln, i) else (b, j), false, sts)

/-- the loop of `search0`, kernel/planner.c:532-570, over the indices of the solvers still to be tried (no MPI plan has `could_prune_now_p`) -/
noncomputable def search0Loop (E : MEnv) (n : ℕ) (rec : MRec) (p : MProblem) (flagsp : ℕ → FlagsT) : List ℕ → Found → Bool → PSts → MRes (Found × PSts)
  | [], best, _, sts => .ok (best, sts)
  | i :: rest, best, notTimed, sts =>
    match E.reg[i]? with
    | some (some d) => do
      let (pln, sts) ← invokeSolver E n rec p d.2 flagsp sts
      let (late, sts) ← timeoutP E (commOf p) (fun w => (sts w).needCheck) sts
      if late then pure (none, sts) else
      match pln with
      | none => search0Loop E n rec p flagsp rest best notTimed sts
      | some pln => do
        let (b, notTimed, sts) ← consider E n (commOf p) best notTimed pln i sts
        search0Loop E n rec p flagsp rest (some b) notTimed sts
    | _ => .error (.err .ub)

/-- the solvers visited by `FORALL_SOLVERS_OF_KIND` (kernel/ifftw.h:812-821), most recently registered first -/
def solversOfKind (E : MEnv) (k : MKind) : List ℕ :=
  (List.range E.reg.length).reverse.filter fun i => decide (E.reg[i]?.join.map Prod.fst = some k)

/-- `search0`, kernel/planner.c:520-573 -/
noncomputable def search0 (E : MEnv) (n : ℕ) (rec : MRec) (p : MProblem) (flagsp : ℕ → FlagsT) (sts : PSts) : MRes (Found × PSts) := do
  let (late, sts) ← timeoutP E (commOf p) (fun _ => true) sts
  if late then pure (none, sts) else search0Loop E n rec p flagsp (solversOfKind E (kindOf p)) none true sts

/-- `x` with the restrictions `r` dropped, if those wanted are still there, kernel/planner.c:597-598 -/
def relaxed (lorig x r : BitVec 20) : BitVec 20 := if LEQ lorig (x &&& ~~~ r) then x &&& ~~~ r else x

/-- the loop of `search`, kernel/planner.c:596-607, with the `x`, `last_x` and `flagsp` of every process -/
noncomputable def searchLoop (E : MEnv) (n : ℕ) (rec : MRec) (p : MProblem) (lorig : ℕ → BitVec 20) :
    List (BitVec 20) → (x : ℕ → BitVec 20) → (lastX : ℕ → Option (BitVec 20)) → (ℕ → FlagsT) → PSts → MRes (Found × (ℕ → FlagsT) × (ℕ → Option (BitVec 20)) × PSts)
  | [], _, lastX, f, sts => .ok (none, f, lastX, sts)
  | r :: rest, x, lastX, f, sts => do
    let x := fun w => relaxed (lorig w) (x w) r
    let new ← agree (commOf p) fun w => decide (lastX w ≠ some (x w))
    if new then do
      let f := fun w => { f w with l := x w }
      let (b, sts) ← search0 E n rec p f sts
      if b.isSome then pure (b, f, fun w => some (x w), sts)
      else searchLoop E n rec p lorig rest x (fun w => some (x w)) f sts
    else searchLoop E n rec p lorig rest x lastX f sts

/-- `search`, kernel/planner.c:575-620 -/
noncomputable def search (E : MEnv) (n : ℕ) (rec : MRec) (p : MProblem) (f : ℕ → FlagsT) (sts : PSts) : MRes (Found × (ℕ → FlagsT) × PSts) := do
  let lorig := fun w => (f w).l
  let (b, f, lastX, sts) ← searchLoop E n rec p lorig relaxTab (fun w => (f w).u) (fun _ => none) f sts
  if b.isSome then pure (b, f, sts) else
  let more ← agree (commOf p) fun w => decide (lastX w ≠ some (lorig w))
  if more then do
    let f := fun w => { f w with l := lorig w }
    let (b, sts) ← search0 E n rec p f sts
    pure (b, f, sts)
  else pure (none, f, sts)

/-- `CHECK_FOR_BOGOSITY`, kernel/planner.c:622-626, with `bogosity_hook`, mpi/api.c:123-131 -/
def checkBogosity (c : Comm) (sts : PSts) : MRes (Bool × PSts) := do
  let any := anyTrue c fun w => decide ((sts w).wstate = .bogus)
  let sts := upd c (fun w st => { st with wstate := if any w then .bogus else st.wstate }) sts
  let r ← agree c fun w => decide ((sts w).wstate = .bogus)
  pure (r, sts)

/-- the label `wisdom_is_bogus`, kernel/planner.c:741-744 -/
def bogusExit (c : Comm) (sts : PSts) : MRes (Option MPlan × PSts) := .ok (none, upd c (fun _ st => { st with wstate := .bogus }) sts)

/-- the `slvndx` argument of `hinsert`, kernel/planner.c:731-735 -/
def slvndxOf : Option (MPlan × ℕ) → BitVec 12
  | some (_, i) => BitVec.ofNat 12 i
  | none => INFEASIBLE_SLVNDX

/-- the label `skip_search`, kernel/planner.c:727-739: every process changes its own tables -/
def skipSearch (c : Comm) (m : ℕ → MSig) (f : ℕ → FlagsT) (b : Option (MPlan × ℕ)) (sts : PSts) : MRes (Option MPlan × PSts) := do
  let r ← each c sts fun w => if (sts w).wstate = .normal ∨ (sts w).wstate = .only then hinsert (sts w) (m w) (f w) (slvndxOf b) else .ok (sts w)
  pure (b.map Prod.fst, upd c (fun w _ => r w) sts)

/-- the label `do_search`, kernel/planner.c:699-725 -/
noncomputable def doSearch (E : MEnv) (n : ℕ) (rec : MRec) (p : MProblem) (m : ℕ → MSig) (sts : PSts) : MRes (Option MPlan × PSts) := do
  let c := commOf p
  if ← agree c fun w => decide ((sts w).wstate = .only) then bogusExit c sts
  else
    let (b, f, sts) ← search E n rec p (fun w => (sts w).flags) sts
    let (bog, sts) ← checkBogosity c sts
    if bog then bogusExit c sts
    else if ← agree c fun w => (sts w).timedOut then
      if ← agree c fun w => decide ((sts w).flags.tli ≠ 0) then
        skipSearch c m (fun w => { f w with hi := (f w).hi ||| BLESSING }) (b.map fun x => (x.1.pl, x.2)) sts
      else pure (none, sts)
    else skipSearch c m (fun w => { f w with tli := 0 }) (b.map fun x => (x.1.pl, x.2)) sts

/-- use of wisdom that all processes found in their tables, and which `wisdom_ok_hook` accepted, kernel/planner.c:664-693 -/
noncomputable def useWisdom (E : MEnv) (n : ℕ) (rec : MRec) (p : MProblem) (m : ℕ → MSig) (sol : ℕ → Slot) (sts : PSts) : MRes (Option MPlan × PSts) := do
  let c := commOf p
  let ndx ← agree c fun w => (sol w).slvndx
  if ndx = INFEASIBLE_SLVNDX then
    if ← agree c fun w => decide ((sts w).wstate = .ignoreInfeasible) then doSearch E n rec p m sts else pure (none, sts)
  else
    let f := fun w => { (sol w).fl with hi := (sol w).fl.hi ||| bliss (sts w).flags }
    let sts1 := upd c (fun _ st => { st with wstate := .only }) sts
    match E.reg[ndx.toNat]? with
    | none => .error (.err .ub)
    | some none => bogusExit c sts1
    | some (some d) =>
      if kindOf p ≠ d.1 then bogusExit c sts1
      else do
        let (pln, sts2) ← invokeSolver E n rec p d.2 f sts1
        let (bog, sts2) ← checkBogosity c sts2
        if bog then bogusExit c sts2
        else
          match pln with
          | none => bogusExit c sts2
          | some b => skipSearch c m f (some (b.pl, ndx.toNat)) (upd c (fun w st => { st with wstate := (sts w).wstate }) sts2)

/-- `wisdom_ok_hook`, mpi/api.c:70-107, when called by all processes: everybody compares its wisdom with that of rank 0 -/
def wisdomOk (c : Comm) (sol : ℕ → Slot) : ℕ → Bool :=
  let eqMe := fun w => decide ((sol w).fl = (sol (c.at 0)).fl ∧ (sol w).slvndx = (sol (c.at 0)).slvndx)
  fun _ => c.all eqMe

/-- `mkplan`, kernel/planner.c:628-745.  If one process has no wisdom, it calls `nowisdom_hook` (mpi/api.c:112-117), and those that have some learn it in the `XM(any_true)` of
`wisdom_ok_hook`: all go on to the search. -/
noncomputable def mkplanBody (E : MEnv) (n : ℕ) (rec : MRec) (p : MProblem) (sts : PSts) : MRes (Option MPlan × PSts) := do
  let c := commOf p
  let sts := upd c (fun _ st => if st.estimatep then { st with flags := { st.flags with tli := 0 } } else st) sts
  let (bog, sts) ← checkBogosity c sts
  if bog then bogusExit c sts
  else
    let sts := upd c (fun _ st => { st with timedOut := false, nprob := st.nprob + 1 }) sts
    let m := fun w => E.sig w p (sts w).nthr
    if ← agree c fun w => decide ((sts w).wstate ≠ .ignoreAll) then
      let found ← each c (fun _ => none) fun w => hlookup (sts w) (m w) (sts w).flags
      if ← agree c (anyTrue c fun w => (found w).isNone) then doSearch E n rec p m sts
      else
        let sol := fun w => (found w).getD ⟨m w, (sts w).flags, INFEASIBLE_SLVNDX⟩
        if ← agree c (wisdomOk c sol) then useWisdom E n rec p m sol sts else doSearch E n rec p m sts
    else doSearch E n rec p m sts

/-- `mkplan` with recursion depth at most `n` -/
noncomputable def mkplan (E : MEnv) : ℕ → MRec
  | 0 => fun _ _ => .error (.err .fuel)
  | n + 1 => mkplanBody E n (mkplan E n)

/-! ### api/apiplan.c -/
open MapFlags (U32 FFTW_ESTIMATE FFTW_PATIENT FFTW_EXHAUSTIVE)

/-- `ego->timelimit` of process `w`, negative if there is no limit (a whole number of the units of `elapsed`) -/
noncomputable def limit (E : MEnv) (w : ℕ) : ℝ :=
  match E.tl w with
  | none => -1
  | some t => t

/-- `mkplan0`, api/apiplan.c:31-43 -/
noncomputable def mkplan0 (E : MEnv) (n : ℕ) (flags : U32) (p : MProblem) (hi : BitVec 3) (ws : WState) (sts : PSts) : MRes (Option MPlan × PSts) := do
  let c := commOf p
  let f ← each c (fun w => (sts w).flags) fun w => (ofOpt (MapFlags.mapflags (limit E w) flags)).map fun f => (⟨f.l, f.u, f.tli, hi⟩ : FlagsT)
  mkplan E n p (upd c (fun w st => { st with flags := f w, wstate := ws }) sts)

/-- `forget`, kernel/planner.c:769-784, on every process -/
def forgetAll (c : Comm) (a : Amnesia) (sts : PSts) : MRes PSts := do
  let r ← each c sts fun w => forget (sts w) a
  pure (upd c (fun w _ => r w) sts)

/-- all processes agree whether the wisdom state is `ws` -/
def allState (c : Comm) (ws : WState) (sts : PSts) : MRes Bool := agree c fun w => decide ((sts w).wstate = ws)

/-- the case of inconsistent wisdom in `mkplan`, api/apiplan.c:68-81 -/
noncomputable def retryBogus (E : MEnv) (n : ℕ) (flags : U32) (p : MProblem) (hi : BitVec 3) (pln : Option MPlan) (sts : PSts) : MRes (Option MPlan × PSts) := do
  if ← allState (commOf p) .bogus sts then
    let sts ← forgetAll (commOf p) .everything sts
    let (r, sts) ← mkplan0 E n flags p hi .normal sts
    if ← allState (commOf p) .bogus sts then
      let sts ← forgetAll (commOf p) .everything sts
      mkplan0 E n (forceEstimator flags) p hi .ignoreAll sts
    else pure (r, sts)
  else pure (pln, sts)

/-- `mkplan`, api/apiplan.c:51-84 -/
noncomputable def apiMkplan (E : MEnv) (n : ℕ) (flags : U32) (p : MProblem) (hi : BitVec 3) (sts : PSts) : MRes (Option MPlan × PSts) := do
  let (r, sts) ← mkplan0 E n flags p hi .normal sts
  let normal ← allState (commOf p) .normal sts
  if normal && r.isNone then
    let (r, sts) ← mkplan0 E n (forceEstimator flags) p hi .ignoreInfeasible sts
    retryBogus E n flags p hi r sts
  else retryBogus E n flags p hi r sts

/-- the loop of `X(mkapiplan)`, api/apiplan.c:119-135 -/
noncomputable def patLoop (E : MEnv) (n : ℕ) (flags : U32) (p : MProblem) : List U32 → Option MPlan → U32 → PSts → MRes (Option MPlan × U32 × PSts)
  | [], pln, used, sts => .ok (pln, used, sts)
  | pat :: rest, pln, used, sts => do
    let (r, sts) ← apiMkplan E n (flags ||| pat) p 0 sts
    match r with
    | none => pure (pln, used, sts)
    | some pln1 => patLoop E n flags p rest (some pln1) (flags ||| pat) sts

/-- the plan found first, with the flags used for it, api/apiplan.c:98-137 -/
noncomputable def firstPlan (E : MEnv) (n : ℕ) (flags : U32) (p : MProblem) (sts : PSts) : MRes (Option MPlan × U32 × PSts) :=
  if flags &&& FFTW_WISDOM_ONLY ≠ 0 then do
    let (r, sts) ← mkplan0 E n flags p 0 .only sts
    pure (r, flags, sts)
  else do
    let levels ← agree (commOf p) fun w => patLevels (limit E w) flags
    patLoop E n (flags &&& ~~~ (FFTW_ESTIMATE ||| FFTW_MEASURE ||| FFTW_PATIENT ||| FFTW_EXHAUSTIVE)) p levels none 0 sts

/-- re-creation of a plan that was found, api/apiplan.c:139-160; a null `p->pln` is dereferenced at line 148 -/
noncomputable def recreate (E : MEnv) (n : ℕ) (p : MProblem) (pln : Option MPlan) (used : U32) (sts : PSts) : MRes (Option MPlan × PSts) :=
  match pln with
  | none => .ok (none, sts)
  | some _ => do
    let (r, sts) ← apiMkplan E n used p BLESSING sts
    if r.isNone then .error (.err .ub) else pure (r, sts)

/-- `X(mkapiplan)`, api/apiplan.c:86-167, called by all processes of the problem's communicator.  (Each process has its own copy of the problem; hooks and reference counts are not modelled.) -/
noncomputable def mkapiplan (E : MEnv) (n : ℕ) (flags : U32) (p : MProblem) (sts : PSts) : MRes (Option MPlan × PSts) := do
  let (r, used, sts) ← firstPlan E n flags p sts
  let (r, sts) ← recreate E n p r used sts
  let sts ← forgetAll (commOf p) .accursed sts
  pure (r, sts)

end FFTW.Mpi.MPlanner
