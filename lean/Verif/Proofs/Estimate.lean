import Verif.Model.Planner

/-!
# Planning that never measures
-/

namespace FFTW

/-- the program never asks the planner to drop the flag ESTIMATE -/
def Mk.KeepsEstimate {α : Type} : Mk α → Prop
  | .ret _ => True
  | .plan _ m k => m.ureset &&& Planner.ESTIMATE = 0 ∧ ∀ r, (k r).KeepsEstimate

/-- whatever the problem, the solver never asks the planner to drop the flag ESTIMATE -/
def Solver.KeepsEstimate (s : Solver) : Prop := ∀ p fl, (s.mkplan p fl).KeepsEstimate

namespace Planner

/-- wisdom only -/
def PSt.W (st : PSt) : Prop := st.wstate = .only ∨ st.wstate = .bogus

structure Kept (st st' : PSt) : Prop where
  runs : st'.runs = st.runs
  u : st'.flags.u = st.flags.u
  w : st.W → st'.W

theorem Kept.refl (st : PSt) : Kept st st := ⟨rfl, rfl, id⟩
theorem Kept.trans {a b c : PSt} (h : Kept a b) (h' : Kept b c) : Kept a c := ⟨h'.runs.trans h.runs, h'.u.trans h.u, h'.w ∘ h.w⟩

/-- measuring is forbidden -/
def PSt.NoRun (st : PSt) : Prop := st.flags.u &&& ESTIMATE ≠ 0 ∨ st.W

theorem Kept.noRun {a b : PSt} (h : Kept a b) (ha : a.NoRun) : b.NoRun := by
  rcases ha with ha | ha
  · left; rw [h.u]; exact ha
  · exact Or.inr (h.w ha)

def RecQuiet (rec : Rec) : Prop := ∀ p st x, st.NoRun → rec p st = .ok x → Kept st x.2

theorem reset_bits (u rs s l : BitVec 20) (h : rs &&& ESTIMATE = 0) (hu : u &&& ESTIMATE ≠ 0) : ((u &&& ~~~ rs) ||| (s ||| l)) &&& ESTIMATE ≠ 0 := by
  intro h'
  apply hu
  have e1 : ESTIMATE = 1#20 <<< 1 := rfl
  ext i hi
  have a := congrArg (fun b => b.getLsbD i) h'
  have b := congrArg (fun b => b.getLsbD i) h
  simp only [BitVec.getLsbD_and, BitVec.getLsbD_or, BitVec.getLsbD_not, BitVec.getLsbD_zero] at a b
  simp only [← BitVec.getLsbD_eq_getElem, BitVec.getLsbD_and, BitVec.getLsbD_zero]
  revert a b
  cases u.getLsbD i <;> cases rs.getLsbD i <;> cases ESTIMATE.getLsbD i <;> simp [hi]

theorem mkplanFD_quiet {rec : Rec} (hr : RecQuiet rec) (p : Problem) (m : FMod) (hm : m.ureset &&& ESTIMATE = 0) {st : PSt} (h : st.NoRun) {x : Option Plan × PSt}
    (hx : mkplanFD rec p m st = .ok x) : Kept st x.2 := by
  unfold mkplanFD at hx
  simp only at hx
  split at hx
  · have := hr p { st with nthr := m.nthr.getD st.nthr } x h hx
    exact ⟨this.runs, this.u, this.w⟩
  · simp only [bind, Except.bind] at hx
    split at hx
    · simp at hx
    · rename_i y hy
      simp only [pure, Except.pure, Except.ok.injEq] at hx
      subst hx
      have := hr p _ y ?_ hy
      · exact ⟨this.runs, rfl, this.w⟩
      · rcases h with h | h
        · exact Or.inl (reset_bits _ _ _ _ hm h)
        · exact Or.inr h

theorem runMk_quiet {rec : Rec} (hr : RecQuiet rec) {α : Type} (t : Mk α) : ∀ {st : PSt}, t.KeepsEstimate → st.NoRun → ∀ {x}, runMk rec t st = .ok x → Kept st x.2 := by
  induction t with
  | ret a =>
    intro st _ _ x hx
    simp only [runMk, Except.ok.injEq] at hx
    subst hx; exact Kept.refl st
  | plan p m k ih =>
    intro st hm h x hx
    rw [runMk] at hx
    split at hx
    · simp at hx
    · rename_i r st1 h1
      have k1 := mkplanFD_quiet hr p m hm.1 h h1
      exact k1.trans (ih r (hm.2 r) (k1.noRun h) hx)

theorem invokeSolver_quiet {rec : Rec} (hr : RecQuiet rec) (env : Env) (p : Problem) (s : Solver) (hs : s.KeepsEstimate) (f : FlagsT) {st : PSt}
    (h : f.u &&& ESTIMATE ≠ 0 ∨ st.W) {x : Option BPlan × PSt} (hx : invokeSolver rec env p s f st = .ok x) : Kept st x.2 := by
  unfold invokeSolver at hx
  simp only [bind, Except.bind] at hx
  split at hx
  · simp at hx
  · rename_i y hy
    simp only [pure, Except.pure, Except.ok.injEq] at hx
    subst hx
    have := runMk_quiet hr _ (hs p _) (st := { st with flags := { f with tli := 0 } }) h hy
    exact ⟨this.runs, rfl, this.w⟩

theorem timeoutP_quiet (env : Env) (st : PSt) : Kept st (timeoutP env st).2 := by
  unfold timeoutP
  split
  · split
    · exact Kept.refl st
    · split <;> exact ⟨rfl, rfl, id⟩
  · exact ⟨rfl, rfl, id⟩

theorem evaluatePlan_quiet (env : Env) (b : BPlan) {st : PSt} (h : st.flags.u &&& ESTIMATE ≠ 0) : Kept st (evaluatePlan env b st).2 := by
  have he : st.estimatep = true := by simpa [PSt.estimatep] using h
  unfold evaluatePlan
  split
  · exact ⟨by simp [he], rfl, id⟩
  · exact Kept.refl st

theorem consider_quiet (env : Env) (best : Found) (nt : Bool) (pln : BPlan) (i : ℕ) {st : PSt} (h : st.flags.u &&& ESTIMATE ≠ 0) :
    Kept st (consider env best nt pln i st).2.2 := by
  unfold consider
  cases best with
  | none => exact Kept.refl st
  | some bj =>
    obtain ⟨b, j⟩ := bj
    simp only
    have k1 : Kept st (if nt then evaluatePlan env b st else (b, st)).2 := by
      split
      · exact evaluatePlan_quiet env b h
      · exact Kept.refl st
    generalize (if nt then evaluatePlan env b st else (b, st)) = T at k1 ⊢
    have k2 := evaluatePlan_quiet env pln (st := T.2) (by rw [k1.u]; exact h)
    split <;> exact k1.trans k2

theorem search0Loop_quiet {rec : Rec} (hr : RecQuiet rec) {env : Env} (hE : ∀ d ∈ env.slvdescs, d.slv.KeepsEstimate) (p : Problem) (f : FlagsT) (hf : f.u &&& ESTIMATE ≠ 0)
    (L : List ℕ) : ∀ {best : Found} {nt : Bool} {st : PSt}, st.flags.u &&& ESTIMATE ≠ 0 → ∀ {x}, search0Loop rec env p f L best nt st = .ok x → Kept st x.2 := by
  induction L with
  | nil =>
    intro best nt st _ x hx
    simp only [search0Loop, Except.ok.injEq] at hx
    subst hx; exact Kept.refl st
  | cons i L ih =>
    intro best nt st h x hx
    rw [search0Loop] at hx
    split at hx
    · simp at hx
    · rename_i d hd
      split at hx
      · simp at hx
      · rename_i pln st1 h1
        have k1 := invokeSolver_quiet hr env p d.slv (hE d (List.mem_of_getElem? hd)) f (Or.inl hf) h1
        have k2 : Kept st1 (if st1.needCheck then timeoutP env st1 else (false, st1)).2 := by
          split
          · exact timeoutP_quiet env st1
          · exact Kept.refl st1
        simp only at hx
        generalize (if st1.needCheck then timeoutP env st1 else (false, st1)) = T at k2 hx
        obtain ⟨late, st2⟩ := T
        have k12 := k1.trans k2
        have h2 : st2.flags.u &&& ESTIMATE ≠ 0 := by rw [k12.u]; exact h
        simp only at hx
        split at hx
        · simp only [Except.ok.injEq] at hx; subst hx; exact k12
        · split at hx
          · exact k12.trans (ih h2 hx)
          · rename_i pln
            have k3 := consider_quiet env best nt pln i h2
            split at hx
            · simp only [Except.ok.injEq] at hx; subst hx; exact k12.trans k3
            · exact (k12.trans k3).trans (ih (by rw [k3.u]; exact h2) hx)

theorem search0_quiet {rec : Rec} (hr : RecQuiet rec) {env : Env} (hE : ∀ d ∈ env.slvdescs, d.slv.KeepsEstimate) (p : Problem) (f : FlagsT) (hf : f.u &&& ESTIMATE ≠ 0)
    {st : PSt} (h : st.flags.u &&& ESTIMATE ≠ 0) {x} (hx : search0 rec env p f st = .ok x) : Kept st x.2 := by
  unfold search0 at hx
  have k1 := timeoutP_quiet env st
  simp only at hx
  split at hx
  · simp only [Except.ok.injEq] at hx; subst hx; exact k1
  · exact k1.trans (search0Loop_quiet hr hE p f hf _ (by rw [k1.u]; exact h) hx)

theorem searchLoop_quiet {rec : Rec} (hr : RecQuiet rec) {env : Env} (hE : ∀ d ∈ env.slvdescs, d.slv.KeepsEstimate) (p : Problem) (lorig : BitVec 20) (R : List (BitVec 20)) :
    ∀ {x : BitVec 20} {lastX : Option (BitVec 20)} {f : FlagsT} {st : PSt}, f.u &&& ESTIMATE ≠ 0 → st.flags.u &&& ESTIMATE ≠ 0 →
    ∀ {y}, searchLoop rec env p lorig R x lastX f st = .ok y → Kept st y.2.2.2 ∧ y.2.1.u = f.u := by
  induction R with
  | nil =>
    intro x lastX f st _ _ y hy
    simp only [searchLoop, Except.ok.injEq] at hy
    subst hy; exact ⟨Kept.refl st, rfl⟩
  | cons r R ih =>
    intro x lastX f st hf h y hy
    rw [searchLoop] at hy
    simp only at hy
    generalize (if LEQ lorig (x &&& ~~~ r) then x &&& ~~~ r else x) = x' at hy
    split at hy
    · split at hy
      · simp at hy
      · rename_i b st1 h1
        simp only [Except.ok.injEq] at hy; subst hy
        exact ⟨search0_quiet hr hE p _ (by exact hf) h h1, rfl⟩
      · rename_i st1 h1
        have k1 := search0_quiet hr hE p _ (by exact hf) h h1
        have := ih (f := { f with l := x' }) hf (by rw [k1.u]; exact h) hy
        exact ⟨k1.trans this.1, this.2⟩
    · exact ih hf h hy

theorem search_quiet {rec : Rec} (hr : RecQuiet rec) {env : Env} (hE : ∀ d ∈ env.slvdescs, d.slv.KeepsEstimate) (p : Problem) (f : FlagsT) (hf : f.u &&& ESTIMATE ≠ 0)
    {st : PSt} (h : st.flags.u &&& ESTIMATE ≠ 0) {y} (hy : search rec env p f st = .ok y) : Kept st y.2.2 := by
  unfold search at hy
  simp only [bind, Except.bind] at hy
  split at hy
  · simp at hy
  · rename_i z hz
    obtain ⟨b, f1, lastX, st1⟩ := z
    have k1 := searchLoop_quiet hr hE p f.l _ hf h hz
    simp only at hy k1
    split at hy
    · simp only [pure, Except.pure, Except.ok.injEq] at hy; subst hy; exact k1.1
    · split at hy
      · split at hy
        · simp at hy
        · rename_i w hw
          simp only [pure, Except.pure, Except.ok.injEq] at hy; subst hy
          exact k1.1.trans (search0_quiet hr hE p _ (by show f1.u &&& ESTIMATE ≠ 0; rw [k1.2]; exact hf) (by rw [k1.1.u]; exact h) hw)
      · simp only [pure, Except.pure, Except.ok.injEq] at hy; subst hy; exact k1.1

theorem checkBogosity_quiet (env : Env) (p : Problem) (st : PSt) : Kept st (checkBogosity env p st).2 := by
  unfold checkBogosity
  refine ⟨rfl, rfl, fun h => ?_⟩
  show (if env.world.bogosity st.tick p = true then WState.bogus else st.wstate) = .only ∨ (if env.world.bogosity st.tick p = true then WState.bogus else st.wstate) = .bogus
  split
  · exact Or.inr rfl
  · exact h

theorem bogusExit_quiet (st : PSt) {x} (hx : bogusExit st = .ok x) : Kept st x.2 := by
  simp only [bogusExit, Except.ok.injEq] at hx
  subst hx
  exact ⟨rfl, rfl, fun _ => Or.inr rfl⟩

theorem hinsert_quiet {st st' : PSt} {m : MSig} {f : FlagsT} {i : BitVec 12} (h : hinsert st m f i = .ok st') : Kept st st' := by
  unfold hinsert at h
  simp only [bind, Except.bind] at h
  split at h
  · split at h
    · simp at h
    · split at h
      · simp at h
      · simp only [pure, Except.pure, Except.ok.injEq] at h; subst h; exact ⟨rfl, rfl, id⟩
  · split at h
    · simp at h
    · split at h
      · simp at h
      · simp only [pure, Except.pure, Except.ok.injEq] at h; subst h; exact ⟨rfl, rfl, id⟩

theorem skipSearch_quiet {st : PSt} {m : MSig} {f : FlagsT} {b} {x} (hx : skipSearch m f b st = .ok x) : Kept st x.2 := by
  unfold skipSearch at hx
  split at hx
  · simp only [bind, Except.bind] at hx
    split at hx
    · simp at hx
    · rename_i s hs
      simp only [pure, Except.pure, Except.ok.injEq] at hx; subst hx; exact hinsert_quiet hs
  · simp only [pure, Except.pure, Except.ok.injEq] at hx; subst hx; exact Kept.refl st

theorem doSearch_quiet {rec : Rec} (hr : RecQuiet rec) {env : Env} (hE : ∀ d ∈ env.slvdescs, d.slv.KeepsEstimate) (p : Problem) (m : MSig) {st : PSt}
    (h : st.flags.u &&& ESTIMATE ≠ 0 ∨ st.wstate = .only) {x} (hx : doSearch rec env p m st = .ok x) : Kept st x.2 := by
  unfold doSearch at hx
  split at hx
  · exact bogusExit_quiet st hx
  · rename_i hw
    have h : st.flags.u &&& ESTIMATE ≠ 0 := h.resolve_right hw
    split at hx
    · simp at hx
    · rename_i b f st1 h1
      have k1 := search_quiet hr hE p st.flags h h h1
      have k2 := k1.trans (checkBogosity_quiet env p st1)
      simp only at k2 hx
      generalize checkBogosity env p st1 = T at k2 hx
      obtain ⟨bog, st2⟩ := T
      simp only at k2 hx
      split at hx
      · exact k2.trans (bogusExit_quiet st2 hx)
      · split at hx
        · split at hx
          · exact k2.trans (skipSearch_quiet hx)
          · simp only [Except.ok.injEq] at hx; subst hx; exact k2
        · exact k2.trans (skipSearch_quiet hx)

theorem useWisdom_quiet {rec : Rec} (hr : RecQuiet rec) {env : Env} (hE : ∀ d ∈ env.slvdescs, d.slv.KeepsEstimate) (p : Problem) (m : MSig) (sol : Slot) {st : PSt}
    (h : st.flags.u &&& ESTIMATE ≠ 0 ∨ st.wstate = .only) {x} (hx : useWisdom rec env p m sol st = .ok x) : Kept st x.2 := by
  unfold useWisdom at hx
  simp only at hx
  have k0 : Kept st { st with tick := st.tick + 1 } := ⟨rfl, rfl, id⟩
  split at hx
  · exact k0.trans (doSearch_quiet hr hE p m (st := { st with tick := st.tick + 1 }) h hx)
  · split at hx
    · split at hx
      · exact k0.trans (doSearch_quiet hr hE p m (st := { st with tick := st.tick + 1 }) h hx)
      · simp only [Except.ok.injEq] at hx; subst hx; exact k0
    · split at hx
      · simp at hx
      · rename_i d hd
        have kb : Kept st { st with tick := st.tick + 1, wstate := .only } := ⟨rfl, rfl, fun _ => Or.inl rfl⟩
        split at hx
        · exact kb.trans (bogusExit_quiet _ hx)
        · split at hx
          · simp at hx
          · rename_i pln st1 h1
            have k1 := invokeSolver_quiet hr env p d.slv (hE d (List.mem_of_getElem? hd)) _ (Or.inr (Or.inl rfl)) h1
            have k2 := (kb.trans k1).trans (checkBogosity_quiet env p st1)
            try simp only at hx
            generalize checkBogosity env p st1 = T at k2 hx
            obtain ⟨bog, st2⟩ := T
            try simp only at k2 hx
            split at hx
            · exact k2.trans (bogusExit_quiet st2 hx)
            · split at hx
              · exact k2.trans (bogusExit_quiet st2 hx)
              · have k3 := skipSearch_quiet hx
                exact ⟨k3.runs.trans k2.runs, k3.u.trans k2.u, fun hw => k3.w hw⟩

theorem mkplanBody_quiet {rec : Rec} (hr : RecQuiet rec) {env : Env} (hE : ∀ d ∈ env.slvdescs, d.slv.KeepsEstimate) : RecQuiet (mkplanBody rec env) := by
  intro p st x h hx
  unfold mkplanBody at hx
  simp only at hx
  have k0 : Kept st (if st.estimatep then { st with flags := { st.flags with tli := 0 } } else st) := by
    split
    · exact ⟨rfl, rfl, id⟩
    · exact Kept.refl st
  generalize (if st.estimatep then { st with flags := { st.flags with tli := 0 } } else st) = st0 at k0 hx
  have k1 := k0.trans (checkBogosity_quiet env p st0)
  have hb : (checkBogosity env p st0).1 = decide ((checkBogosity env p st0).2.wstate = .bogus) := rfl
  generalize checkBogosity env p st0 = T at k1 hb hx
  obtain ⟨bog, st1⟩ := T
  simp only at k1 hb hx
  split at hx
  · exact k1.trans (bogusExit_quiet st1 hx)
  · rename_i hbog
    have hnb : st1.wstate ≠ .bogus := by
      intro e; exact hbog (by rw [hb]; simpa using e)
    have h1 : st1.flags.u &&& ESTIMATE ≠ 0 ∨ st1.wstate = .only := by
      rcases k1.noRun h with h | h | h
      · exact Or.inl h
      · exact Or.inr h
      · exact absurd h hnb
    have k2 : Kept st { st1 with timedOut := false, nprob := st1.nprob + 1 } := ⟨k1.runs, k1.u, k1.w⟩
    split at hx
    · split at hx
      · simp at hx
      · exact k2.trans (useWisdom_quiet hr hE p _ _ (st := { st1 with timedOut := false, nprob := st1.nprob + 1 }) h1 hx)
      · exact k2.trans (doSearch_quiet hr hE p _ (st := { st1 with timedOut := false, nprob := st1.nprob + 1 }) h1 hx)
    · exact k2.trans (doSearch_quiet hr hE p _ (st := { st1 with timedOut := false, nprob := st1.nprob + 1 }) h1 hx)

theorem mkplan_quiet {env : Env} (hE : ∀ d ∈ env.slvdescs, d.slv.KeepsEstimate) (n : ℕ) : RecQuiet (mkplan env n) := by
  induction n with
  | zero => intro p st x _ hx; simp [mkplan] at hx
  | succ n ih => exact mkplanBody_quiet ih hE

end Planner
end FFTW
