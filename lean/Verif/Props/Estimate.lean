import Verif.Proofs.Estimate
import Verif.Props.MapFlags

/-!
# C63: planning that leaves the arrays alone

`PSt.runs` counts the times a plan is run in order to measure it: each zeroes the user's arrays and computes on them (kernel/timer.c:130-168), and nothing
else that planning does touches them.
-/

namespace FFTW.Props
open Planner
open MapFlags (U32 FFTW_ESTIMATE FFTW_PATIENT FFTW_EXHAUSTIVE)

private theorem mapflags_estimate {tl : ℝ} {flags : U32} {f : MapFlags.PlnrFlags} (hf : flags &&& FFTW_ESTIMATE ≠ 0) (h : MapFlags.mapflags tl flags = some f) :
    f.u &&& ESTIMATE ≠ 0 := by
  obtain ⟨p, hp, _, hu⟩ := C25_upper tl flags
  rw [h] at hp
  obtain rfl := Option.some.inj hp
  have := hu.2.2.1.mpr (Or.inr (by simpa [Has] using hf))
  intro e
  apply this
  have e2 : MapFlags.ESTIMATE = (ESTIMATE).setWidth 32 := rfl
  rw [e2, ← BitVec.setWidth_and, e]
  rfl

private theorem force_estimate (flags : U32) : forceEstimator flags &&& FFTW_ESTIMATE ≠ 0 := by
  intro h
  have := congrArg (fun b => b.getLsbD 6) h
  simp [forceEstimator, FFTW_ESTIMATE] at this

private theorem mkplan0_quiet {env : Env} (hE : ∀ d ∈ env.slvdescs, d.slv.KeepsEstimate) {n : ℕ} {tl : ℝ} {flags : U32} {p : Problem} {hi : BitVec 3} {w : WState} {st : PSt}
    (h : flags &&& FFTW_ESTIMATE ≠ 0 ∨ w = .only) {x : Option Plan × PSt} (hx : mkplan0 env n tl flags p hi w st = .ok x) : x.2.runs = st.runs := by
  unfold mkplan0 at hx
  simp only [bind, Except.bind] at hx
  split at hx
  · simp at hx
  · rename_i f hf
    have hf : MapFlags.mapflags tl flags = some f := by
      revert hf
      cases MapFlags.mapflags tl flags with
      | none => intro h; simp [ofOpt] at h
      | some a => intro h; simpa [ofOpt] using h
    refine (mkplan_quiet hE n p _ x ?_ hx).runs
    rcases h with h | h
    · exact Or.inl (mapflags_estimate h hf)
    · exact Or.inr (Or.inl h)

private theorem forget_runs {st st' : PSt} {a : Amnesia} (h : forget st a = .ok st') : st'.runs = st.runs := by
  unfold forget at h
  cases a <;> simp only [bind, Except.bind, pure, Except.pure] at h <;> repeat' split at h
  all_goals first | (simp at h; done) | skip
  all_goals simp only [Except.ok.injEq] at *
  all_goals (subst h; simp_all)

private theorem retryBogus_quiet {env : Env} (hE : ∀ d ∈ env.slvdescs, d.slv.KeepsEstimate) {n : ℕ} {tl : ℝ} {flags : U32} (hf : flags &&& FFTW_ESTIMATE ≠ 0) {p : Problem}
    {hi : BitVec 3} {pln : Option Plan} {st : PSt} {x : Option Plan × PSt} (hx : retryBogus env n tl flags p hi pln st = .ok x) : x.2.runs = st.runs := by
  unfold retryBogus at hx
  split at hx
  · simp only [bind, Except.bind] at hx
    split at hx
    · simp at hx
    · rename_i s1 h1
      split at hx
      · simp at hx
      · rename_i r h2
        have e2 := (mkplan0_quiet hE (Or.inl hf) h2).trans (forget_runs h1)
        split at hx
        · split at hx
          · simp at hx
          · rename_i s3 h3
            exact (mkplan0_quiet hE (Or.inl (force_estimate _)) hx).trans ((forget_runs h3).trans e2)
        · simp only [pure, Except.pure, Except.ok.injEq] at hx; subst hx; exact e2
  · simp only [pure, Except.pure, Except.ok.injEq] at hx; subst hx; rfl

private theorem apiMkplan_quiet {env : Env} (hE : ∀ d ∈ env.slvdescs, d.slv.KeepsEstimate) {n : ℕ} {tl : ℝ} {flags : U32} (hf : flags &&& FFTW_ESTIMATE ≠ 0) {p : Problem}
    {hi : BitVec 3} {st : PSt} {x : Option Plan × PSt} (hx : apiMkplan env n tl flags p hi st = .ok x) : x.2.runs = st.runs := by
  unfold apiMkplan at hx
  simp only [bind, Except.bind] at hx
  split at hx
  · simp at hx
  · rename_i r h1
    have e1 := mkplan0_quiet hE (Or.inl hf) h1
    split at hx
    · split at hx
      · simp at hx
      · rename_i r2 h2
        exact (retryBogus_quiet hE hf hx).trans ((mkplan0_quiet hE (Or.inl (force_estimate _)) h2).trans e1)
    · exact (retryBogus_quiet hE hf hx).trans e1

private theorem or_estimate {flags : U32} : (flags ||| FFTW_ESTIMATE) &&& FFTW_ESTIMATE ≠ 0 := by
  intro h
  have := congrArg (fun b => b.getLsbD 6) h
  simp [FFTW_ESTIMATE] at this

private theorem patLevels_estimate (tl : ℝ) {flags : U32} (hf : flags &&& FFTW_ESTIMATE ≠ 0) : patLevels tl flags = [FFTW_ESTIMATE] := by
  unfold patLevels
  simp only [if_pos hf]
  split <;> rfl

/-- with FFTW_ESTIMATE: what was found first -/
private theorem firstPlan_quiet {env : Env} (hE : ∀ d ∈ env.slvdescs, d.slv.KeepsEstimate) {n : ℕ} {tl : ℝ} {flags : U32} (hf : flags &&& FFTW_ESTIMATE ≠ 0) {p : Problem}
    {st : PSt} {x : Option Plan × U32 × PSt} (hx : firstPlan env n tl flags p st = .ok x) :
    x.2.2.runs = st.runs ∧ (x.1 ≠ none → x.2.1 &&& FFTW_ESTIMATE ≠ 0) := by
  unfold firstPlan at hx
  split at hx
  · simp only [bind, Except.bind] at hx
    split at hx
    · simp at hx
    · rename_i r h1
      simp only [pure, Except.pure, Except.ok.injEq] at hx; subst hx
      exact ⟨mkplan0_quiet hE (Or.inr rfl) h1, fun _ => hf⟩
  · rw [patLevels_estimate tl hf, patLoop] at hx
    split at hx
    · simp at hx
    · rename_i s1 h1
      simp only [Except.ok.injEq] at hx; subst hx
      exact ⟨apiMkplan_quiet hE or_estimate h1, fun h => absurd rfl h⟩
    · rename_i pl s1 h1
      simp only [patLoop, Except.ok.injEq] at hx; subst hx
      exact ⟨apiMkplan_quiet hE or_estimate h1, fun _ => or_estimate⟩

/-- C63: planning with FFTW_ESTIMATE runs no plan, so it leaves the arrays alone: whatever wisdom has been collected or loaded (with any flags), whatever the
time limit, and whether or not a plan is found.  The solvers may be any that do not drop the flag ESTIMATE for their children. -/
theorem C63_estimate (env : Env) (hE : ∀ d ∈ env.slvdescs, d.slv.KeepsEstimate) (n : ℕ) (tl : ℝ) (flags : U32) (hf : flags &&& FFTW_ESTIMATE ≠ 0) (p : Problem)
    (st st' : PSt) (r : Option Plan) (h : mkapiplan env n tl flags p st = .ok (r, st')) : st'.runs = st.runs := by
  unfold mkapiplan at h
  simp only [bind, Except.bind] at h
  split at h
  · simp at h
  · rename_i a ha
    obtain ⟨e1, e2⟩ := firstPlan_quiet hE hf ha
    split at h
    · simp at h
    · rename_i b hb
      split at h
      · simp at h
      · rename_i s hs
        simp only [pure, Except.pure, Except.ok.injEq, Prod.mk.injEq] at h
        rw [← h.2, forget_runs hs]
        unfold recreate at hb
        split at hb
        · rename_i pl hpl
          simp only [bind, Except.bind] at hb
          split at hb
          · simp at hb
          · rename_i c hc
            split at hb
            · simp at hb
            · simp only [pure, Except.pure, Except.ok.injEq] at hb; subst hb
              exact (apiMkplan_quiet hE (e2 (by rw [hpl]; simp)) hc).trans e1
        · simp only [pure, Except.pure, Except.ok.injEq] at hb; subst hb; exact e1

/-- C63: with FFTW_WISDOM_ONLY, looking for a plan in wisdom runs no plan, whatever the other flags; so when no plan is returned, the arrays have been left alone -/
theorem C63_wisdom_only (env : Env) (hE : ∀ d ∈ env.slvdescs, d.slv.KeepsEstimate) (n : ℕ) (tl : ℝ) (flags : U32) (hf : flags &&& FFTW_WISDOM_ONLY ≠ 0) (p : Problem)
    (st st' : PSt) (h : mkapiplan env n tl flags p st = .ok (none, st')) : st'.runs = st.runs := by
  unfold mkapiplan at h
  simp only [bind, Except.bind] at h
  split at h
  · simp at h
  · rename_i a ha
    have e1 : a.2.2.runs = st.runs := by
      unfold firstPlan at ha
      rw [if_pos hf] at ha
      simp only [bind, Except.bind] at ha
      split at ha
      · simp at ha
      · rename_i r h1
        simp only [pure, Except.pure, Except.ok.injEq] at ha; subst ha
        exact mkplan0_quiet hE (Or.inr rfl) h1
    split at h
    · simp at h
    · rename_i b hb
      split at h
      · simp at h
      · rename_i s hs
        simp only [pure, Except.pure, Except.ok.injEq, Prod.mk.injEq] at h
        rw [← h.2, forget_runs hs]
        unfold recreate at hb
        split at hb
        · simp only [bind, Except.bind] at hb
          split at hb
          · simp at hb
          · split at hb
            · simp at hb
            · rename_i hn
              simp only [pure, Except.pure, Except.ok.injEq] at hb
              rw [hb] at hn
              rw [h.1] at hn
              simp at hn
        · simp only [pure, Except.pure, Except.ok.injEq] at hb; subst hb; exact e1

end FFTW.Props
