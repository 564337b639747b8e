import Verif.Proofs.Pool4
/-!
# Preservation of the thread-pool invariant: creation and termination of workers
-/

namespace FFTW.Pool
open FFTW.Spawn

variable {s s' : Sys} {g g' : Ghost} {t : Tid}

/-- a worker is created -/
theorem inv_create (I : Inv s g) {st : List Frame} {J : ℕ} {r : Job} {i w : ℕ} (hs : s.stack t = .create J r i :: st) (ha : s.alive w = false) :
    ∃ g', Inv { s with
      stack := Function.update (Function.update s.stack (.wk w) [.wait]) t (.assign J r i w :: st)
      alive := Function.update s.alive w true
      ready := Function.update s.ready w 0
      done := Function.update s.done w 0
      slot := Function.update s.slot w none } g' := by
  obtain ⟨hp, hx, hr⟩ := I.top hs (J := J) (r := r) (φ := .dist i) rfl
  have hc := I.active hp
  have hJ := I.job J t r _ hp
  have hdead : g.own w = .dead ∧ s.stack (.wk w) = [] := by
    have hw := I.wrk w
    cases ho : g.own w <;> simp only [WInv, ho] at hw
    case dead => exact ⟨rfl, hw.2⟩
    all_goals rw [ha] at hw; simp at hw
  have htw : t ≠ .wk w := by rintro rfl; rw [hs] at hdead; simp at hdead
  set s' : Sys := { s with
      stack := Function.update (Function.update s.stack (.wk w) [.wait]) t (.assign J r i w :: st)
      alive := Function.update s.alive w true
      ready := Function.update s.ready w 0
      done := Function.update s.done w 0
      slot := Function.update s.slot w none }
  refine ⟨{ g with own := Function.update g.own w (.held t) }, ?_⟩
  set g' : Ghost := { g with own := Function.update g.own w (.held t) }
  have how' : g'.own w = .held t := Function.update_self ..
  have hon : ∀ w', w' ≠ w → g'.own w' = g.own w' := fun J' h => Function.update_of_ne h _ _
  have hon' : ∀ w', g.own w' ≠ .dead → g'.own w' = g.own w' := fun w' h => hon w' (by rintro rfl; exact h hdead.1)
  have hst : ∀ t', t' ≠ t → t' ≠ .wk w → s'.stack t' = s.stack t' := fun t' h1 h2 => by
    show Function.update (Function.update s.stack (.wk w) [.wait]) t _ t' = _
    rw [Function.update_of_ne h1, Function.update_of_ne h2]
  have hstt : s'.stack t = .assign J r i w :: st := Function.update_self ..
  have hstw : s'.stack (.wk w) = [.wait] := by
    show Function.update (Function.update s.stack (.wk w) [.wait]) t _ _ = _
    rw [Function.update_of_ne htw.symm, Function.update_self]
  have hne : ∀ t', s.stack t' ≠ [] → t' ≠ .wk w := by rintro _ h rfl; exact h hdead.2
  constructor
  · intro t'
    by_cases ht : t' = t
    · rw [ht, hstt]
      exact .job (J := J) (r := r) (φ := .dist i) rfl hp ⟨hx, how'⟩ (hr.congr (fun _ _ _ _ _ => rfl) (fun w' J' i' _ h => hon' w' (by rw [h]; simp)))
    · by_cases htw' : t' = .wk w
      · rw [htw', hstw]; exact .worker w rfl (by simp)
      · rw [hst t' ht htw']
        refine (I.stk t').congr (fun _ _ _ _ => rfl) (fun _ w' J' i' _ h => hon' w' (by rw [h]; simp)) ?_ (fun _ _ _ _ => rfl) (fun h => ⟨h, rfl⟩)
          (fun f h => absurd h (I.kx hc))
        intro w' h
        have hww : w' ≠ w := by rintro rfl; rw [hdead.1] at h; cases h
        exact ⟨by rw [hon w' hww, h], Function.update_of_ne hww _ _, rfl⟩
  · intro w'
    by_cases hww : w' = w
    · rw [hww]
      simp only [WInv, how']
      exact ⟨Function.update_self .., Function.update_self .., Function.update_self .., hstw, _, st, hstt, rfl⟩
    · refine (I.wrk w').congr (hon w' hww) (Function.update_of_ne hww _ _) (Function.update_of_ne hww _ _) (Function.update_of_ne hww _ _) (Function.update_of_ne hww _ _)
        ?_ ?_ rfl (fun J i h => ⟨fun t r φ h1 h2 => ⟨t, r, φ, h1, h2⟩, rfl, rfl⟩) (I.ndying hc w')
      · by_cases ht : t = .wk w'
        · right
          rw [← ht, hs, hstt]
          have := hr.ne_nil; cases st <;> simp_all
        · left; exact hst _ (fun h => ht h.symm) (by simpa using hww)
      · intro t' h
        have h1 : t' ≠ t := by rintro rfl; exact I.no_held hs (by simp [Holds]) w' h
        refine hst t' h1 (hne t' ?_)
        have hw' := I.wrk w'
        simp only [WInv, h] at hw'
        obtain ⟨_, _, _, _, f1, st1, h2, _⟩ := hw'
        rw [h2]; simp
  · intro J' t' r' φ' h
    refine (I.job J' t' r' φ' h).congr rfl rfl ?_ rfl (fun w' i' h => by rw [hon' w' (by rw [h]; simp), h]) (fun _ => ⟨rfl, rfl⟩)
    intro fr h1 h2
    by_cases ht : t' = t
    · rw [ht, hstt]
      rw [ht, hs] at h1
      rcases List.mem_cons.1 h1 with rfl | h1
      · obtain ⟨r2, φ2, h2⟩ := h2
        exact ⟨.assign J r i w, by simp, r2, φ2, h2⟩
      · exact ⟨fr, by simp [h1], h2⟩
    · exact ⟨fr, by rw [hst t' ht (hne t' (List.ne_nil_of_mem h1))]; exact h1, h2⟩
  · exact I.noj
  · exact I.lst
  · exact I.nod
  · intro w'
    by_cases hww : w' = w
    · rw [hww, how']
      have := I.mem w
      rw [hdead.1] at this
      simpa using this
    · rw [hon w' hww]; exact I.mem w'
  · intro t' h
    obtain ⟨f1, st1, h1, h2⟩ := I.lck t' h
    by_cases ht : t' = t
    · rw [ht, hs] at h1; injection h1 with e1 e2; subst e1; exact absurd h2 (by simp [crit])
    · exact ⟨f1, st1, by rw [hst t' ht (hne t' (by rw [h1]; simp))]; exact h1, h2⟩
  · intro h
    have h : s.cleaning = true := h
    rw [hc] at h; cases h
  · exact I.trm
  · exact I.nxt
  · obtain ⟨B, hB⟩ := I.fin
    refine ⟨max B (w + 1), fun w' h => ?_⟩
    show Function.update s.alive w true w' = false
    rw [Function.update_of_ne (by omega)]; exact hB w' (by omega)
  · intro m hm
    have h0 := I.mst m hm
    rw [hst, h0]
    · rintro rfl; rw [hs] at h0; cases h0
    · simp
  · intro m hm
    by_cases ht : Tid.master m = t
    · rw [ht, hstt]; simp
    · rw [hst _ ht (by simp)]; exact I.mst' m hm
  · exact I.log.same rfl (fun _ h => h) rfl

/-- when no call is active, stacks of threads other than the cleaner have a simple shape -/
theorem SOK.idle {st : List Frame} (h : SOK s g t st) (hph : ∀ J, g.ph J = none) (how : ∀ w J i, g.own w ≠ .asg J i) (hl : ¬ (s.lock = some t ∧ s.cleaning = true)) :
    SOK s' g' t st := by
  cases h with
  | nil => exact .nil
  | app m hm hv => exact .app m hm hv
  | worker w hw hf => exact .worker w hw hf
  | run hr hi =>
    cases hr with
    | worker w hw ho => exact absurd ho (how w _ _)
    | self r hp => rw [hph] at hp; cases hp
  | job hj hp => rw [hph] at hp; cases hp
  | kill m hm hx => exact absurd ⟨hx.1, hx.2.1⟩ hl

/-- steps during cleanup that concern the worker `w0` -/
theorem inv_cln (I : Inv s g) (hc : s.cleaning = true) (hc' : s'.cleaning = true) {k : Tid} (hk : s.lock = some k) (hk' : s'.lock = some k) {w0 : ℕ} {f : Frame} {p : Prog}
    {m : ℕ} (hm : k = .master m) (hp : p.Valid)
    (e1 : s'.jobs = s.jobs) (e3 : s'.nextJob = s.nextJob) (e4 : s'.nm = s.nm) (e5 : s'.log = s.log) (e6 : g'.ph = g.ph) (e7 : g'.info = g.info)
    (hst : ∀ t', t' ≠ k → t' ≠ .wk w0 → s'.stack t' = s.stack t') (hsk : s'.stack k = [f, .app p]) (hsk0 : s.stack k ≠ []) (hx : KX s' g' k f) (hcr : crit f)
    (hsw : SOK s' g' (.wk w0) (s'.stack (.wk w0))) (ho : ∀ w, w ≠ w0 → g'.own w = g.own w ∧ s'.alive w = s.alive w ∧ s'.ready w = s.ready w ∧ s'.done w = s.done w)
    (ho0 : g'.own w0 = .dead ∨ g'.own w0 = .dying) (hW : WInv s' g' w0) (hd : ∀ w, g.own w = .dying → w = w0)
    (hl : IsList s'.cdr s'.head g'.l) (hn : g'.l.Nodup) (hmem : ∀ w, w ∈ g'.l ↔ g'.own w = .queue) : Inv s' g' := by
  obtain ⟨hph, how, -⟩ := I.cln hc
  have hasg : ∀ w J i, g.own w ≠ .asg J i := fun w J i h => by
    rcases how w with h1 | h1 | h1 <;> rw [h] at h1 <;> cases h1
  constructor
  · intro t'
    by_cases ht : t' = k
    · rw [ht, hsk]; exact .kill m hm hx hp
    · by_cases htw : t' = .wk w0
      · rw [htw]; exact hsw
      · rw [hst t' ht htw]
        exact (I.stk t').idle hph hasg (by rintro ⟨h, -⟩; rw [hk] at h; exact ht (Option.some.inj h).symm)
  · intro w
    by_cases hw : w = w0
    · rw [hw]; exact hW
    · obtain ⟨h1, h2, h3, h4⟩ := ho w hw
      have hww := I.wrk w
      have h5 : s'.stack (.wk w) = s.stack (.wk w) := hst _ (by rw [hm]; simp) (by simpa using hw)
      rcases how w with h | h | h
      · simp only [WInv, h1, h, h2, h5] at hww ⊢; exact hww
      · simp only [WInv, h1, h, h2, h3, h4, h5] at hww ⊢; exact hww
      · exact absurd (hd w h) hw
  · intro J t' r φ h; rw [e6, hph] at h; cases h
  · intro J h; rw [e1]; exact I.noj J (hph J)
  · exact hl
  · exact hn
  · exact hmem
  · intro t' h
    rw [hk'] at h
    obtain rfl := Option.some.inj h
    exact ⟨f, [.app p], hsk, hcr⟩
  · intro _
    refine ⟨by rw [e6]; exact hph, fun w => ?_, k, f, _, hk', hsk, hx⟩
    by_cases hw : w = w0
    · rw [hw]; rcases ho0 with h | h <;> simp [h]
    · rw [(ho w hw).1]; exact how w
  · intro h; rw [hc'] at h; cases h
  · intro J h; rw [e3] at h; rw [e6, e7]; exact I.nxt J h
  · obtain ⟨B, hB⟩ := I.fin
    refine ⟨max B (w0 + 1), fun w h => ?_⟩
    rw [(ho w (by omega)).2.1]; exact hB w (by omega)
  · intro m' hm'
    rw [e4] at hm'
    rw [hst, I.mst m' hm']
    · intro h; rw [← h, I.mst m' hm'] at hsk0; exact hsk0 rfl
    · simp
  · intro m' hm'
    rw [e4] at hm'
    by_cases ht : Tid.master m' = k
    · rw [ht, hsk]; simp
    · rw [hst _ ht (by simp)]; exact I.mst' m' hm'
  · exact I.log.same e5 (by rw [e6]; exact fun _ h => h) e7

end FFTW.Pool
