import Verif.Model.Planner

/-!
# What an outside observer sees of one search (for C48)

`watch` follows the same run as `search0Loop` and writes down, for each solver that was called, what happened.
-/

namespace FFTW.Planner

/-- one line of the observer's log: solver `i` was called and returned no plan / a plan whose cost was then found to be `c`
(`none` if it was never compared with another plan) -/
inductive Ev
  | failed (i : ℕ)
  | plan (i : ℕ) (c : Option Int)
  deriving DecidableEq

/-- the cost of the present candidate is found out now -/
def timeLast (c : Int) : List Ev → List Ev
  | .plan i none :: l => .plan i (some c) :: l
  | e :: l => e :: timeLast c l
  | [] => []

/-- what the observer writes down when solver `i` returns the plan `pln`: the first plan is not timed; when a second one arrives,
the first one's cost is found out as well -/
def logPlan (env : Env) (best : Found) (notTimed : Bool) (pln : BPlan) (i : ℕ) (st : PSt) (log : List Ev) : List Ev :=
  match best with
  | none => .plan i none :: log
  | some (b, _) =>
    let (b, st) := if notTimed then evaluatePlan env b st else (b, st)
    .plan i (some (evaluatePlan env pln st).1.pcost) :: (if notTimed then timeLast b.pcost log else log)

/-- observer (most recent line first) -/
def watch (rec : Rec) (env : Env) (p : Problem) (flagsp : FlagsT) : List ℕ → Found → Bool → PSt → List Ev → List Ev
  | [], _, _, _, log => log
  | i :: rest, best, notTimed, st, log =>
    match env.slvdescs[i]? with
    | none => log
    | some d =>
      match invokeSolver rec env p d.slv flagsp st with
      | .error _ => log
      | .ok (pln, st) =>
        let (late, st) := if st.needCheck then timeoutP env st else (false, st)
        if late then log
        else
          match pln with
          | none => watch rec env p flagsp rest best notTimed st (.failed i :: log)
          | some pln =>
            let log := logPlan env best notTimed pln i st log
            let r := consider env best notTimed pln i st
            if r.2.2.pruningp && pln.prune then log
            else watch rec env p flagsp rest (some r.1) r.2.1 r.2.2 log

/-- the final statement about a log -/
def LogMin (r : Found) (log : List Ev) : Prop :=
  (r = none → ∀ i c, Ev.plan i c ∉ log) ∧
  ∀ b j, r = some (b, j) →
    (Ev.plan j none ∈ log ∧ ∀ i c, Ev.plan i c ∈ log → i = j ∧ c = none) ∨
    (Ev.plan j (some b.pcost) ∈ log ∧ ∀ i c, Ev.plan i c ∈ log → ∃ x, c = some x ∧ b.pcost ≤ x)

/-- like `Keep`, for a search, which needs not be quiet -/
structure SKeep (st st' : PSt) : Prop where
  flags : st'.flags = st.flags
  nthr : st'.nthr = st.nthr
  wst : st'.wstate = st.wstate ∨ st'.wstate = .bogus

/-- the call of solver number `i` with lower limit `l` found nothing, in a state with the same settings as `st` -/
def CalledAndFailed (rec : Rec) (env : Env) (p : Problem) (f : FlagsT) (st : PSt) (i : ℕ) : Prop :=
  ∃ d st0 st1, env.slvdescs[i]? = some d ∧ SKeep st st0 ∧ invokeSolver rec env p d.slv f st0 = .ok (none, st1)

end FFTW.Planner
