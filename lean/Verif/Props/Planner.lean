import Verif.Proofs.Api
import Verif.Props.Htab
import Verif.Proofs.DftSolvers

/-!
# The planner: C04 (wisdom cannot make results wrong), C08 (unsolvable problems), C17 (safety), C18 (forgetting),
C28 (wisdom only), C29 (settings restored), C48 (choice)

All statements are for an arbitrary `Env` (any list of solvers, any signature function — colliding or not —, any clock,
costs and hooks), any recursion depth `n`, and any planner state, in particular any contents of the two wisdom tables.
-/

namespace FFTW.Planner
open FFTW.Spec WisdomSpec
open MapFlags (U32 FFTW_ESTIMATE FFTW_PATIENT FFTW_EXHAUSTIVE FFTW_PRESERVE_INPUT FFTW_DESTROY_INPUT)

/-- the user asked that the input be kept (the default) -/
def Preserves (flags : U32) : Prop := Props.Has flags FFTW_PRESERVE_INPUT ∨ ¬ Props.Has flags FFTW_DESTROY_INPUT

/-! ### C04 -/

/-- **C04**, planner: whatever is in the tables (`st` is arbitrary, so they may be stale, inconsistent, or hold entries of other
problems under a colliding signature), a plan that `mkplan` returns solves the requested problem `p`, keeping the input
if the flags say so; `Sound` is the full contract of Spec/Sound.lean -/
theorem C04_planner_returns_only_correct_plans (env : Env) (hs : ∀ d ∈ env.slvdescs, d.slv.Sound) (n : ℕ) (p : Problem) (hk : Kosher p)
    (st st' : PSt) (hf : LEQ st.flags.l st.flags.u = true) (pl : Plan) (h : mkplan env n p st = .ok (some pl, st')) :
    Sound (decide (st.flags.l &&& NO_DESTROY_INPUT ≠ 0)) p pl :=
  (mkplan_ok env n p st (some pl) st' (Or.inl hf) h).sound hs hk pl rfl

theorem wish_preserves {g flags : U32} (h : SameWish g flags) : Preserves g ↔ Preserves flags := by
  have key : ∀ k : ℕ, k ≠ 3 → k ≠ 5 → k ≠ 6 → k < 32 → (Props.Has g (1#32 <<< k) ↔ Props.Has flags (1#32 <<< k)) := by
    intro k h3 h5 h6 hk
    have e : ∀ w : U32, Props.Has w (1#32 <<< k) ↔ w.getLsbD k = true := by
      intro w
      have := MapFlags.flagp_yes (w.setWidth 32) k hk
      simp only [MapFlags.FLAGP, MapFlags.YES, BitVec.getLsbD_setWidth, hk, decide_true, Bool.true_and] at this
      rw [show BitVec.setWidth 32 w &&& 1#32 <<< k ^^^ 0 = BitVec.setWidth 32 w &&& 1#32 <<< k by simp] at this
      exact this
    rw [e, e, h k h3 h5 h6]
  unfold Preserves
  rw [show FFTW_PRESERVE_INPUT = 1#32 <<< 4 from rfl, show FFTW_DESTROY_INPUT = 1#32 <<< 0 from rfl,
    key 4 (by omega) (by omega) (by omega) (by omega), key 0 (by omega) (by omega) (by omega) (by omega)]

theorem nd_of_mapflags {tl : ℝ} {g : U32} {f : MapFlags.PlnrFlags} (h : MapFlags.mapflags tl g = some f) : ndOf f.l = true ↔ Preserves g := by
  obtain ⟨p', h', h1, _⟩ := Props.C25_lower tl g
  rw [h] at h'
  obtain rfl := Option.some.inj h'
  unfold Preserves
  rw [← h1]
  unfold ndOf Props.Has
  rw [decide_eq_true_iff]
  have : ∀ l : BitVec 20, (l &&& NO_DESTROY_INPUT ≠ 0) ↔ (l.setWidth 32 &&& MapFlags.NO_DESTROY_INPUT ≠ 0) := by
    intro l
    have e : (l &&& NO_DESTROY_INPUT).setWidth 32 = l.setWidth 32 &&& MapFlags.NO_DESTROY_INPUT := by
      rw [BitVec.setWidth_and]; rfl
    rw [← e]
    constructor
    · intro h1 h2
      apply h1
      have := congrArg (BitVec.setWidth 20) h2
      rwa [BitVec.setWidth_setWidth_of_le _ (by omega), BitVec.setWidth_eq] at this
    · intro h1 h2
      apply h1; rw [h2]; rfl
  exact this f.l

open Classical in
/-- **C04**, API: the plan stored by `fftw_plan_*` (through all its retries, patience levels and the re-creation from wisdom)
solves the requested problem, and keeps the input unless the user passed FFTW_DESTROY_INPUT without FFTW_PRESERVE_INPUT -/
theorem C04_api_returns_only_correct_plans (env : Env) (hs : ∀ d ∈ env.slvdescs, d.slv.Sound) (n : ℕ) (tl : ℝ) (flags : U32) (p : Problem)
    (hk : Kosher p) (st st' : PSt) (pl : Plan) (h : mkapiplan env n tl flags p st = .ok (some pl, st')) :
    Sound (decide (Preserves flags)) p pl := by
  refine mkapiplan_ind (Q := fun r => ∀ pl, r = some pl → Sound (decide (Preserves flags)) p pl) ?_ (by simp) h pl rfl
  intro g hi w st r st' hg h pl hpl
  obtain ⟨f, hf, hle⟩ := mkplan0_pre tl g
  rw [mkplan0_eq hf] at h
  have := (mkplan_ok env n p _ r st' (Or.inl hle) h).sound hs hk pl hpl
  simp only at this
  have e : ndOf f.l = decide (Preserves flags) := by
    rw [Bool.eq_iff_iff, nd_of_mapflags hf, decide_eq_true_iff]
    exact wish_preserves hg
  rw [← e]; exact this

/-! ### C08 -/

theorem unsolvable_planner {env : Env} (hk : ∀ d ∈ env.slvdescs, d.kind ≠ .none) (n : ℕ) {st st' : PSt} {r : Option Plan}
    (h : mkplan env n .unsolvable st = .ok (r, st')) : r = none := by
  cases n with
  | zero => simp [mkplan] at h
  | succ n =>
    have hsk : solversOfKind env (kindOf .unsolvable) = [] := by
      unfold solversOfKind
      rw [List.filter_eq_nil_iff]
      intro i hi
      simp only [List.mem_reverse, List.mem_range] at hi
      rw [List.getElem?_eq_getElem hi]
      simp only [Option.map_some, Option.some.injEq, decide_eq_true_eq]
      exact hk _ (List.getElem_mem hi)
    have hs0 : ∀ f st b st', search0 (mkplan env n) env .unsolvable f st = .ok (b, st') → b = none := by
      intro f st b st' h
      unfold search0 at h
      rw [hsk] at h
      simp only [search0Loop] at h
      split at h <;> simp only [Except.ok.injEq, Prod.mk.injEq] at h <;> exact h.1.symm
    have hsl : ∀ (R : List (BitVec 20)) lorig x lastX f st b f' lastX' st', searchLoop (mkplan env n) env .unsolvable lorig R x lastX f st = .ok (b, f', lastX', st') → b = none := by
      intro R
      induction R with
      | nil =>
        intro lorig x lastX f st b f' lastX' st' h
        simp only [searchLoop, Except.ok.injEq, Prod.mk.injEq] at h
        exact h.1.symm
      | cons q R ih =>
        intro lorig x lastX f st b f' lastX' st' h
        rw [searchLoop] at h
        simp only at h
        generalize (if LEQ lorig (x &&& ~~~ q) then x &&& ~~~ q else x) = y at h
        split at h
        · cases hs : search0 (mkplan env n) env .unsolvable { f with l := y } st with
          | error e => rw [hs] at h; simp at h
          | ok z =>
            obtain ⟨b1, st1⟩ := z
            rw [hs] at h
            have := hs0 _ _ _ _ hs
            subst this
            exact ih _ _ _ _ _ _ _ _ _ h
        · exact ih _ _ _ _ _ _ _ _ _ h
    have hse : ∀ f st b f' st', search (mkplan env n) env .unsolvable f st = .ok (b, f', st') → b = none := by
      intro f st b f' st' h
      unfold search at h
      obtain ⟨⟨b1, f1, x1, st1⟩, h1, h⟩ := bind_ok h
      have := hsl _ _ _ _ _ _ _ _ _ _ h1
      subst this
      simp only at h
      split at h
      · obtain ⟨⟨b2, st2⟩, h2, h⟩ := bind_ok h
        have := pure_ok h
        simp only [Prod.mk.injEq] at this
        rw [← this.1]; exact hs0 _ _ _ _ h2
      · have := pure_ok h
        simp only [Prod.mk.injEq] at this
        exact this.1.symm
    have hskip : ∀ m f st r st', skipSearch m f none st = .ok (r, st') → r = none := by
      intro m f st r st' h
      obtain ⟨rfl, _⟩ := skipSearch_spec h
      rfl
    have hdo : ∀ m st r st', doSearch (mkplan env n) env .unsolvable m st = .ok (r, st') → r = none := by
      intro m st r st' h
      unfold doSearch at h
      split at h
      · simp only [bogusExit, Except.ok.injEq, Prod.mk.injEq] at h
        exact h.1.symm
      · cases hs : search (mkplan env n) env .unsolvable st.flags st with
        | error e => rw [hs] at h; simp at h
        | ok z =>
          obtain ⟨b, f, st1⟩ := z
          rw [hs] at h
          have := hse _ _ _ _ _ hs
          subst this
          simp only at h
          split at h
          · simp only [bogusExit, Except.ok.injEq, Prod.mk.injEq] at h
            exact h.1.symm
          · split at h
            · split at h
              · exact hskip _ _ _ _ _ h
              · simp only [Except.ok.injEq, Prod.mk.injEq] at h
                exact h.1.symm
            · exact hskip _ _ _ _ _ h
    have huse : ∀ m sol st r st', useWisdom (mkplan env n) env .unsolvable m sol st = .ok (r, st') → r = none := by
      intro m sol st r st' h
      unfold useWisdom at h
      simp only at h
      split at h
      · exact hdo _ _ _ _ h
      · split at h
        · split at h
          · exact hdo _ _ _ _ h
          · simp only [Except.ok.injEq, Prod.mk.injEq] at h
            exact h.1.symm
        · split at h
          · simp at h
          · rename_i d hd
            have hne : kindOf .unsolvable ≠ d.kind := fun h => hk d (List.mem_of_getElem? hd) h.symm
            rw [if_pos hne] at h
            simp only [bogusExit, Except.ok.injEq, Prod.mk.injEq] at h
            exact h.1.symm
    rw [mkplan] at h
    unfold mkplanBody at h
    simp only at h
    generalize (if st.estimatep = true then { st with flags := { st.flags with tli := 0 } } else st) = st0 at h
    split at h
    · simp only [bogusExit, Except.ok.injEq, Prod.mk.injEq] at h
      exact h.1.symm
    · split at h
      · split at h
        · simp at h
        · exact huse _ _ _ _ _ h
        · exact hdo _ _ _ _ h
      · exact hdo _ _ _ _ h

/-- **C08**: a problem rejected by `mkproblem_*` (see `C08_dft_problem` …) is never planned: `fftw_plan_*` returns NULL,
whatever the wisdom; the hypothesis says that no solver is registered for PROBLEM_UNSOLVABLE -/
theorem C08_unsolvable_gives_null (env : Env) (hk : ∀ d ∈ env.slvdescs, d.kind ≠ .none) (n : ℕ) (tl : ℝ) (flags : U32) (st st' : PSt) (r : Option Plan)
    (h : mkapiplan env n tl flags .unsolvable st = .ok (r, st')) : r = none := by
  refine mkapiplan_ind (Q := fun r => r = none) ?_ rfl h
  intro g hi w st r st' hg h
  obtain ⟨f, hf, hle⟩ := mkplan0_pre tl g
  rw [mkplan0_eq hf] at h
  exact unsolvable_planner hk n h

/-! ### C17 -/

/-- **C17**, in the planner: starting from well-formed tables (`TInv`: the table invariant, and every entry names a registered
solver or is marked infeasible) with at most 4095 solvers, no planner run indexes outside a table or the solver list, and
the tables are well-formed afterwards -/
theorem C17_planning_keeps_tables_well_formed (env : Env) (hlen : env.slvdescs.length ≤ 4095) (n : ℕ) (p : Problem) (st : PSt) (h : TInv env st) :
    mkplan env n p st ≠ .error .ub ∧ ∀ r st', mkplan env n p st = .ok (r, st') → TInv env st' := by
  have := mkplan_safe hlen n p st h
  unfold SafeR at this
  constructor
  · intro he; rw [he] at this; exact this rfl
  · intro r st' he; rw [he] at this; exact this.1

/-- a new planner is well-formed -/
theorem C17_new_planner (env : Env) : ∃ t, mkhashtab = some t ∧ ∀ st : PSt, st.blessed = t → st.unblessed = t → TInv env st := by
  obtain ⟨t, h1, h2, h3, _⟩ := mkhashtab_spec
  have hkn : t.Known env.slvdescs.length := by intro e he; rw [h3] at he; simp at he
  exact ⟨t, h1, fun st hb hu => ⟨by rw [hb]; exact h2, by rw [hu]; exact h2, by rw [hb]; exact hkn, by rw [hu]; exact hkn⟩⟩

/-! ### C18 -/

theorem forget_spec (st : PSt) (a : Amnesia) : ∃ t, mkhashtab = some t ∧
    forget st a = .ok { st with unblessed := t, blessed := match a with | .everything => t | .accursed => st.blessed } := by
  obtain ⟨t, h1, _⟩ := mkhashtab_spec
  refine ⟨t, h1, ?_⟩
  unfold forget
  rw [h1]
  cases a <;> rfl

/-- **C18**: `fftw_forget_wisdom` (`forget` with FORGET_EVERYTHING) always succeeds, after it no lookup finds anything, both tables
are empty, and nothing but the tables changes -/
theorem C18_forget_everything (st : PSt) : ∃ st', forget st .everything = .ok st' ∧
    (∀ s f, hlookup st' s f = .ok none) ∧ st'.blessed.contents = 0 ∧ st'.unblessed.contents = 0 ∧
    { st' with blessed := st.blessed, unblessed := st.unblessed } = st := by
  obtain ⟨t, h1, h2, h3, _⟩ := mkhashtab_spec
  obtain ⟨t', h1', hf⟩ := forget_spec st .everything
  obtain rfl := Option.some.inj (h1.symm.trans h1')
  refine ⟨_, hf, ?_, h3, h3, rfl⟩
  intro s f
  obtain ⟨r, k1, k2, k3⟩ := htabLookup_spec h2 s f
  have hr : r = none := by
    cases r with
    | none => rfl
    | some x =>
      obtain ⟨x1, x2, _⟩ := k2 x rfl
      have : x.entry ∈ t.contents := mem_contents.2 ⟨x, x1, x2.1, rfl⟩
      rw [h3] at this; simp at this
  subst hr
  unfold hlookup
  simp only [k1]
  rfl

/-- **C18**: discarding temporary knowledge (FORGET_ACCURSED, done at the end of every `fftw_plan_*` call) keeps the saved table
as it is, slot by slot, and empties the other one -/
theorem C18_forget_accursed (st : PSt) : ∃ st', forget st .accursed = .ok st' ∧ st'.blessed = st.blessed ∧ st'.unblessed.contents = 0 ∧
    { st' with unblessed := st.unblessed } = st := by
  obtain ⟨t, h1, h2, h3, _⟩ := mkhashtab_spec
  obtain ⟨t', h1', hf⟩ := forget_spec st .accursed
  obtain rfl := Option.some.inj (h1.symm.trans h1')
  exact ⟨_, hf, rfl, h3, rfl⟩

/-- **C18**: every planning call ends with no temporary knowledge left -/
theorem C18_plan_leaves_no_temporary_knowledge (env : Env) (n : ℕ) (tl : ℝ) (flags : U32) (p : Problem) (st st' : PSt) (r : Option Plan)
    (h : mkapiplan env n tl flags p st = .ok (r, st')) : st'.unblessed.contents = 0 := by
  unfold mkapiplan at h
  obtain ⟨a, _, h⟩ := bind_ok h
  obtain ⟨b, _, h⟩ := bind_ok h
  obtain ⟨st3, h3, h⟩ := bind_ok h
  have := pure_ok h
  simp only [Prod.mk.injEq] at this
  rw [← this.2]
  obtain ⟨st4, k1, _, k2, _⟩ := C18_forget_accursed b.2
  rw [h3] at k1
  obtain rfl := Except.ok.inj k1
  exact k2

/-! ### C28 -/

/-- the time-limit code a lookup uses, kernel/planner.c:640-642: 0 when estimating -/
def askTli (l : FlagsT) : BitVec 9 := if l.u &&& ESTIMATE ≠ 0 then 0 else l.tli

/-- a fact in one of the tables answers this question with a solver -/
def HasWisdom (env : Env) (st : PSt) (p : Problem) (f : FlagsT) : Prop :=
  ∃ e, (e ∈ st.blessed.contents ∨ e ∈ st.unblessed.contents) ∧ e.slvndx ≠ 0xFFF ∧ Answers e (env.sigOf p st.nthr) f.l f.u (askTli f)

theorem quiet_plan {env : Env} {n : ℕ} {p : Problem} {st st' : PSt} {r : Option Plan} (ht : TInv env st) (hw : st.wstate = .only)
    (h : mkplan env n p st = .ok (r, st')) : r.isSome = true → HasWisdom env st p st.flags := by
  cases n with
  | zero => simp [mkplan] at h
  | succ n =>
    rw [mkplan] at h
    unfold mkplanBody at h
    simp only at h
    have hdo : ∀ m st1 r st', st1.wstate = .only → doSearch (mkplan env n) env p m st1 = .ok (r, st') → r = none := by
      intro m st1 r st' hw h
      unfold doSearch at h
      rw [if_pos hw] at h
      simp only [bogusExit, Except.ok.injEq, Prod.mk.injEq] at h
      exact h.1.symm
    -- the state after the preliminaries
    obtain ⟨st0, he, a1, a2, a3, a4, a5, a6⟩ : ∃ st0 : PSt, (if st.estimatep = true then { st with flags := { st.flags with tli := 0 } } else st) = st0 ∧
        st0.flags = { st.flags with tli := askTli st.flags } ∧ st0.nthr = st.nthr ∧ st0.wstate = st.wstate ∧ st0.blessed = st.blessed ∧ st0.unblessed = st.unblessed ∧ True := by
      by_cases hE : st.estimatep = true
      · rw [if_pos hE]
        refine ⟨_, rfl, ?_, rfl, rfl, rfl, rfl, trivial⟩
        unfold askTli
        rw [if_pos (by simpa [PSt.estimatep] using hE)]
      · rw [if_neg hE]
        refine ⟨_, rfl, ?_, rfl, rfl, rfl, rfl, trivial⟩
        unfold askTli
        rw [if_neg (by simpa [PSt.estimatep] using hE)]
    rw [he] at h
    split at h
    · simp only [bogusExit, Except.ok.injEq, Prod.mk.injEq] at h
      rw [← h.1]; simp
    · rename_i hb
      set st1 : PSt := { (checkBogosity env p st0).2 with timedOut := false, nprob := (checkBogosity env p st0).2.nprob + 1 } with hst1
      obtain ⟨c1, c2, c3, c4, c5⟩ := checkBogosity_spec env p st0
      have w1 : st1.wstate = .only := ((c5 (by simpa using hb)).1).trans (a3.trans hw)
      have t1 : TInv env st1 := ht.tables (show (checkBogosity env p st0).2.blessed = _ from a4) (show (checkBogosity env p st0).2.unblessed = _ from a5)
      have f1 : st1.flags = { st.flags with tli := askTli st.flags } := c1.trans a1
      have n1 : st1.nthr = st.nthr := c2.trans a2
      rw [if_pos (by rw [w1]; simp)] at h
      cases hl : hlookup st1 (env.sigOf p st1.nthr) st1.flags with
      | error e => rw [hl] at h; simp at h
      | ok o =>
        rw [hl] at h
        cases o with
        | none =>
          simp only at h
          rw [hdo _ _ _ _ w1 h]; simp
        | some sol =>
          simp only at h
          intro hr
          have hc := hlookup_cand hl
          by_cases hinf : sol.slvndx = INFEASIBLE_SLVNDX
          · exfalso
            have : r = none := by
              unfold useWisdom at h
              simp only at h
              split at h
              · exact hdo _ _ _ _ (by exact w1) h
              · rw [if_neg (by rw [w1]; simp)] at h
                simp only [Except.ok.injEq, Prod.mk.injEq] at h
                exact h.1.symm
            rw [this] at hr; simp at hr
          · refine ⟨sol.entry, ?_, hinf, ?_⟩
            · obtain ⟨x1, y1, y2⟩ := lookup_mem t1.b (env.sigOf p st1.nthr) st1.flags
              obtain ⟨x2, z1, z2⟩ := lookup_mem t1.u (env.sigOf p st1.nthr) st1.flags
              unfold hlookup at hl
              rw [y1, z1] at hl
              have e1 : st1.blessed = st.blessed := a4
              have e2 : st1.unblessed = st.unblessed := a5
              cases x1 with
              | some b =>
                left
                have : b = sol := by simpa [ofOpt, bind, Except.bind, pure, Except.pure] using hl
                rw [← e1, ← this]; exact y2 b rfl
              | none =>
                right
                have : x2 = some sol := by simpa [ofOpt, bind, Except.bind, pure, Except.pure] using hl
                rw [← e2]; exact z2 sol this
            · have := cand_iff.1 (show sol.cand (env.sigOf p st1.nthr) st1.flags from hc)
              rw [f1, n1] at this
              exact this.2

/-- **C28**, planner: in wisdom-only mode no plan is ever evaluated, and a plan is returned only if a stored fact answers the
question with a solver -/
theorem C28_planner_never_searches (env : Env) (n : ℕ) (p : Problem) (st st' : PSt) (r : Option Plan) (ht : TInv env st) (hw : st.wstate = .only)
    (h : mkplan env n p st = .ok (r, st')) : st'.nplan = st.nplan ∧ (r.isSome = true → HasWisdom env st p st.flags) :=
  ⟨(mkplan_ok env n p st r st' (Or.inr (Or.inl hw)) h).keep.nplan (Or.inl hw), quiet_plan ht hw h⟩

/-- **C28**, API: with FFTW_WISDOM_ONLY, a NULL answer is reached without evaluating any plan, and if there is no wisdom for the
problem the answer is NULL.  (If there is wisdom, the plan is built a second time in order to bless the wisdom it uses;
only if the stored wisdom is inconsistent can that second pass search.) -/
theorem C28_api (env : Env) (n : ℕ) (tl : ℝ) (flags : U32) (hfl : flags &&& FFTW_WISDOM_ONLY ≠ 0) (p : Problem) (st st' : PSt) (r : Option Plan)
    (ht : TInv env st) (h : mkapiplan env n tl flags p st = .ok (r, st')) :
    (r = none → st'.nplan = st.nplan) ∧
    ∃ f, MapFlags.mapflags tl flags = some f ∧ (¬ HasWisdom env st p ⟨f.l, f.u, f.tli, 0⟩ → r = none) := by
  obtain ⟨f, hf, hle⟩ := mkplan0_pre tl flags
  unfold mkapiplan at h
  obtain ⟨a, h1, h⟩ := bind_ok h
  obtain ⟨b, h2, h⟩ := bind_ok h
  obtain ⟨st3, h3, h⟩ := bind_ok h
  have hp := pure_ok h
  simp only [Prod.mk.injEq] at hp
  unfold firstPlan at h1
  rw [if_pos hfl] at h1
  obtain ⟨⟨pln, st1⟩, h4, h1⟩ := bind_ok h1
  have ha := pure_ok h1
  rw [mkplan0_eq hf] at h4
  obtain ⟨q1, q2⟩ := C28_planner_never_searches env n p (st' := st1) (r := pln) (st := { st with flags := ⟨f.l, f.u, f.tli, 0⟩, wstate := .only }) (ht.tables rfl rfl) rfl h4
  have hfo : st3.nplan = b.2.nplan := by
    obtain ⟨st4, k1, _, _, k2⟩ := C18_forget_accursed b.2
    rw [h3] at k1
    obtain rfl := Except.ok.inj k1
    rw [← k2]
  have hnone : pln = none → b = (none, st1) := by
    intro hp
    subst hp
    rw [← ha] at h2
    exact (pure_ok h2).symm
  refine ⟨?_, f, hf, ?_⟩
  · intro hr
    have : pln = none := by
      cases hpl : pln with
      | none => rfl
      | some pl =>
        exfalso
        rw [← ha, hpl] at h2
        unfold recreate at h2
        simp only at h2
        obtain ⟨c, h5, h2⟩ := bind_ok h2
        split at h2
        · simp at h2
        · rename_i hc
          have := pure_ok h2
          rw [this, hp.1, hr] at hc
          simp at hc
    have hb := hnone this
    rw [← hp.2, hfo, hb]
    exact q1
  · intro hno
    have : pln = none := by
      cases hpl : pln with
      | none => rfl
      | some pl => exact absurd (q2 (by rw [hpl]; rfl)) hno
    rw [← hp.1, hnone this]

/-! ### C29 -/

/-- **C29**: whatever happens inside (any solvers, sound or not, any recursion, time-outs, wisdom), after planning the flags and the
number of threads are those before; only the time-limit code is set to 0 if estimating (it is irrelevant then) -/
theorem C29_settings_restored (env : Env) (n : ℕ) (p : Problem) (st st' : PSt) (r : Option Plan)
    (hp : LEQ st.flags.l st.flags.u = true ∨ st.wstate = .only ∨ st.wstate = .bogus) (h : mkplan env n p st = .ok (r, st')) :
    st'.flags.l = st.flags.l ∧ st'.flags.u = st.flags.u ∧ st'.flags.hi = st.flags.hi ∧ st'.nthr = st.nthr ∧
    (st'.flags.tli = st.flags.tli ∨ (st.flags.u &&& ESTIMATE ≠ 0 ∧ st'.flags.tli = 0)) := by
  have := mkplan_ok env n p st r st' hp h
  refine ⟨this.keep.l, this.keep.u, this.keep.hi, this.nthr, ?_⟩
  rcases this.tli with h | ⟨h1, h2⟩
  · exact Or.inl h
  · exact Or.inr ⟨by simpa [PSt.estimatep] using h1, h2⟩

/-- **C29**, sub-plans: a request for a child plan with changed flags (`X(mkplan_f_d)`) restores them -/
theorem C29_child_request_restores (env : Env) (n : ℕ) (p : Problem) (m : FMod) (st st' : PSt) (r : Option Plan)
    (hm : ¬ (m.lset = 0 ∧ m.uset = 0 ∧ m.ureset = 0)) (h : mkplanFD (mkplan env n) p m st = .ok (r, st')) :
    st'.flags = st.flags := by
  unfold mkplanFD at h
  simp only at h
  rw [if_neg hm] at h
  obtain ⟨a, _, h⟩ := bind_ok h
  have := pure_ok h
  simp only [Prod.mk.injEq] at this
  rw [← this.2]

/-- **C29**, solvers: calling a solver restores all flags and the number of threads, even though the solver changes them -/
theorem C29_solver_call_restores (rec : Rec) (env : Env) (p : Problem) (s : Solver) (f : FlagsT) (st st' : PSt) (r : Option BPlan)
    (h : invokeSolver rec env p s f st = .ok (r, st')) : st'.flags = st.flags ∧ st'.nthr = st.nthr := by
  unfold invokeSolver at h
  obtain ⟨a, _, h⟩ := bind_ok h
  have := pure_ok h
  simp only [Prod.mk.injEq] at this
  rw [← this.2]
  exact ⟨rfl, rfl⟩

/-! ### C48 -/

/-- **C48**, choice: `watch` is an observer's log of the search (which solver was called, whether it gave a plan, at what cost).  Unless the
search was cut short by the time limit (then it reports no plan), the chosen plan is one of those in the log; it is the
only one, or its cost is the minimum of all the costs; and "no plan" is reported only if no solver gave one -/
theorem C48_keeps_a_cheapest_plan (env : Env) (n : ℕ) (p : Problem) (f : FlagsT) (L : List ℕ) (st st' : PSt) (r : Found)
    (h : search0Loop (mkplan env n) env p f L none true st = .ok (r, st')) :
    LogMin r (watch (mkplan env n) env p f L none true st []) ∨ r = none ∧ st'.timedOut = true ∧ st'.estimatep = false :=
  search0Loop_min L ⟨fun _ => ⟨by simp, rfl⟩, fun _ _ h => by simp at h⟩ h

/-- **C48**, failure: if a whole search fails without a time-out, every solver of the problem's kind was called with the lower limit
requested by the user and returned no plan -/
theorem C48_failure_means_all_failed (env : Env) (n : ℕ) (p : Problem) (f f' : FlagsT) (hf : LEQ f.l f.u = true) (st st' : PSt)
    (h : search (mkplan env n) env p f st = .ok (none, f', st')) (ht : st'.timedOut = false) (i : ℕ) (d : SlvDesc)
    (hd : env.slvdescs[i]? = some d) (hk : d.kind = kindOf p) :
    ∃ g : FlagsT, g.l = f.l ∧ g.u = f.u ∧ CalledAndFailed (mkplan env n) env p g st i := by
  refine search_fail (mkplan_ok env n) hf h ht i ?_
  unfold solversOfKind
  simp only [List.mem_filter, List.mem_reverse, List.mem_range]
  exact ⟨(List.getElem?_eq_some_iff.1 hd).1, by rw [hd]; simp [hk]⟩

/-! ### non-vacuity: a planner with one (sound) solver, run on a problem it can solve and on one it cannot -/

/-- dft/nop.c restricted to rank minus infinity -/
private def exSolver : Solver := ⟨fun p _ => match p with
  | .dft q => (match q.vecsz with
    | none => .ret (some (.dft fun _ _ _ _ st => st))
    | some _ => .nada)
  | _ => .nada⟩

private theorem exSolver_sound : exSolver.Sound := by
  intro p fl hk
  cases p with
  | dft q =>
    unfold exSolver
    simp only
    cases hv : q.vecsz with
    | none =>
      intro pl hpl
      obtain rfl := Option.some.inj hpl
      simp only [FFTW.Sound, hv]
      exact GOK_empty rfl _ _ _ _
    | some l => intro pl hpl; simp at hpl
  | rdft q => intro pl hpl; simp at hpl
  | rdft2 q => intro pl hpl; simp at hpl
  | rdft2s q => intro pl hpl; simp at hpl
  | unsolvable => intro pl hpl; simp at hpl

private def exEnv : Env where
  slvdescs := [⟨exSolver, .dft, [110], 0⟩]
  sigOf _ _ := ⟨1, 2, 3, 4⟩
  world := ⟨fun _ => false, fun _ => 7, fun _ => false, fun _ => 0, fun _ => false, fun _ _ _ => true, fun _ _ => false⟩

private def exSt (t : HTab) : PSt := ⟨t, t, ⟨0x1000, 0x1000, 0, 0⟩, 1, .ignoreAll, false, false, 0, 0, 0, 0⟩
private def exP : Problem := .dft ⟨[], none, ⟨0, 0⟩, ⟨0, 1⟩, ⟨1, 0⟩, ⟨1, 1⟩⟩

/-- the hypotheses of C04 are met, and a plan is returned -/
example : (∀ d ∈ exEnv.slvdescs, d.slv.Sound) ∧ Kosher exP ∧ LEQ (exSt ⟨[], 0⟩).flags.l (exSt ⟨[], 0⟩).flags.u = true ∧
    (mkplan exEnv 1 exP (exSt ⟨[], 0⟩)).toOption.map (fun r => r.1.isSome) = some true := by
  refine ⟨?_, ?_, ?_, ?_⟩
  · intro d hd
    simp only [exEnv, List.mem_singleton] at hd
    rw [hd]; exact exSolver_sound
  · refine ⟨?_, fun _ a ha => by simp [locT, Tensor.append, ins] at ha, by simp, by simp⟩
    intro h
    simp at h
  · have : LEQ (0x1000 : BitVec 20) 0x1000 = true := by decide
    exact this
  · decide +kernel

/-- a problem without a solver: the search fails, and C48 applies -/
example : (mkplan exEnv 1 (.dft ⟨[⟨2, 1, 1⟩], some [], ⟨0, 0⟩, ⟨0, 1⟩, ⟨1, 0⟩, ⟨1, 1⟩⟩) (exSt ⟨[], 0⟩)).toOption.map (fun r => r.1.isSome) = some false := by
  decide +kernel

/-- a state in wisdom-only mode with and without an answering fact -/
example : ∃ t st, runHistory [⟨⟨1, 2, 3, 4⟩, 0x1000, 0x1000, 0, 0⟩] = some t ∧ TInv exEnv st ∧ st.wstate = .only ∧ HasWisdom exEnv st exP st.flags ∧
    ¬ HasWisdom exEnv { st with flags := ⟨0, 0, 0, 0⟩ } exP ⟨0, 0, 0, 0⟩ := by
  obtain ⟨t, h1, h2, h3, _⟩ := runHistory_spec [⟨⟨1, 2, 3, 4⟩, 0x1000, 0x1000, 0, 0⟩] (by simp)
  have hc : ∀ e, e ∈ t.contents ↔ e = ⟨⟨1, 2, 3, 4⟩, 0x1000, 0x1000, 0, 0⟩ := by
    intro e
    rw [h3]
    simp [recordAll, record]
  have hkn : t.Known exEnv.slvdescs.length := by
    intro e he
    rw [hc] at he
    subst he
    right
    simp [exEnv]
  refine ⟨t, { exSt t with wstate := .only }, h1, ⟨h2, h2, hkn, hkn⟩, rfl, ⟨_, Or.inl ((hc _).2 rfl), by decide, ?_⟩, ?_⟩
  · exact ⟨rfl, by rw [if_neg (by decide)]; have h0 : Incl (0x1000 : BitVec 20) 0x1000 := incl_of_and (by decide); exact ⟨h0, h0⟩⟩
  · rintro ⟨e, he, _, _, hi⟩
    have : e = ⟨⟨1, 2, 3, 4⟩, 0x1000, 0x1000, 0, 0⟩ := he.elim (hc e).1 (hc e).1
    subst this
    rw [if_neg (by decide)] at hi
    exact absurd (hi.1 12 (by omega) (by decide)) (by decide)

end FFTW.Planner
