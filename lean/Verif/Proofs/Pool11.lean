import Verif.Proofs.Pool10
/-!
# The thread pool: every execution is finite
-/

namespace FFTW.Pool
open FFTW.Spawn

variable {s s' : Sys} {g g' : Ghost} {t : Tid}

/-- steps that change one worker object -/
theorem dec_one {n : ℕ} {w0 : ℕ} {f : Frame} {st st' : List Frame} (hm : HasM s n) (hs : s.stack t = f :: st) (hst : ∀ t', t' ≠ t → s'.stack t' = s.stack t') (hst' : s'.stack t = st')
    (hf : ∀ w, t = .wk w → w = w0 ∨ fetching st' = false) (ha : ∀ w, w ≠ w0 → s'.alive w = s.alive w) (hl : ∀ w, w ≠ w0 → s'.slot w = s.slot w)
    (hr : ∀ w, w ≠ w0 → s'.ready w = s.ready w) (hj : ∀ J, s'.jobs J = s.jobs J ∨ s'.jobs J = none) (hlt : sw st' + V s' w0 < sw (f :: st) + V s w0) :
    ∃ n' < n, HasM s' n' := by
  refine hm.dec (t := t) (w0 := w0) (fun t' h => .inl (hst t' h)) ha (fun w hw => ?_) (by rw [hst', hs]; exact hlt)
  apply V_le (ha w hw) (hl w hw) (hr w hw)
  · left
    simp only [slotW, hl w hw]
    split
    · rename_i J i hJ
      rcases hj J with h | h <;> rw [h]
      exact Nat.zero_le _
    · exact Nat.le_refl _
  · by_cases h : Tid.wk w = t
    · right; rw [h, hst']; exact (hf w h.symm).resolve_left hw
    · left; exact hst _ h

/-- steps that move a thread and may end a call -/
theorem dec_less {n : ℕ} {f : Frame} {st st' : List Frame} (hm : HasM s n) (hs : s.stack t = f :: st) (hst : ∀ t', t' ≠ t → s'.stack t' = s.stack t') (hst' : s'.stack t = st')
    (hf : fetching st' = false) (ha : s'.alive = s.alive) (hl : s'.slot = s.slot) (hr : s'.ready = s.ready) (hj : ∀ J, s'.jobs J = s.jobs J ∨ s'.jobs J = none)
    (hlt : sw st' < sw (f :: st)) : ∃ n' < n, HasM s' n' := by
  have hV : ∀ w, V s' w ≤ V s w := by
    intro w
    apply V_le (by rw [ha]) (by rw [hl]) (by rw [hr])
    · left
      simp only [slotW, hl]
      split
      · rename_i J i hJ
        rcases hj J with h | h <;> rw [h]
        exact Nat.zero_le _
      · exact Nat.le_refl _
    · by_cases h : Tid.wk w = t
      · right; rw [h, hst']; exact hf
      · left; exact hst _ h
  refine hm.dec (t := t) (w0 := 0) (fun t' h => .inl (hst t' h)) (fun w _ => by rw [ha]) (fun w _ => hV w) ?_
  have := hV 0
  rw [hst', hs]; omega

theorem Inv.not_killed (I : Inv s g) (hk : Killed s) {w : ℕ} (ha : s.alive w = true) (ho : g.own w ≠ .dying) : s.slot w ≠ some .kill := by
  intro h
  obtain ⟨m, f, st, h1, h2⟩ := hk w ha h
  rcases h2 with rfl | rfl | rfl
  · obtain ⟨_, _, _, _, _, _, _, h3⟩ := I.kill_top h1 (.inr (.inl ⟨w, rfl⟩)); exact ho h3.2.1
  · obtain ⟨_, _, _, _, _, _, _, h3⟩ := I.kill_top h1 (.inr (.inr (.inl ⟨w, rfl⟩))); exact ho h3.1
  · obtain ⟨_, _, _, _, _, _, _, h3⟩ := I.kill_top h1 (.inr (.inr (.inr ⟨w, rfl⟩))); exact ho h3.2.1

theorem Inv.wk_stack (I : Inv s g) {w : ℕ} {f : Frame} {st : List Frame} (hs : s.stack (.wk w) = f :: st)
    (hf : f = .wait ∨ f = .fetch ∨ f = .signal ∨ f = .exit) : st = [] := by
  have := I.stk (.wk w)
  rw [hs] at this
  cases this with
  | worker => rfl
  | app m hm => cases hm
  | run => simp at hf
  | job hj => rcases hf with rfl | rfl | rfl | rfl <;> simp [jphase] at hj
  | kill m hm => cases hm

/-- `jphase` frames never sit on an idle worker -/
theorem Inv.job_ne (I : Inv s g) {f f' : Frame} {st : List Frame} (hs : s.stack t = f :: st) {x : ℕ × Job × Phase} (hj : jphase f = some x) {w : ℕ} (hw : s.stack (.wk w) = [f'])
    : t ≠ .wk w := by
  rintro rfl
  rw [hs] at hw
  obtain ⟨rfl, rfl⟩ := List.cons.inj hw
  obtain ⟨J, r, φ⟩ := x
  exact (I.top hs hj).2.2.ne_nil rfl

theorem Inv.held (I : Inv s g) {w : ℕ} {t' : Tid} (h : g.own w = .held t') : s.alive w = true ∧ s.ready w = 0 ∧ s.stack (.wk w) = [.wait] := by
  have hw := I.wrk w
  simp only [WInv, h] at hw
  exact ⟨hw.1, hw.2.1, hw.2.2.2.1⟩

theorem dec_job {n : ℕ} (I : Inv s g) (hk : Killed s) (hm : HasM s n) {f : Frame} {st : List Frame} (hs : s.stack t = f :: st) {J : ℕ} {r : Job} {φ : Phase}
    (hj : jphase f = some (J, r, φ)) {fresh : ℕ} (h : stepJob t fresh s st f = .next s') : ∃ n' < n, HasM s' n' := by
  obtain ⟨hp, hx, hr⟩ := I.top hs hj
  have hfe : fetching st = false := by
    cases hr with
    | app => rfl
    | run => rfl
  have hcl := I.active hp
  cases f <;> simp only [jphase, Option.some.injEq, Prod.mk.injEq, reduceCtorEq] at hj <;> obtain ⟨rfl, rfl, hφ⟩ := hj <;> simp only [FX] at hx <;>
    try simp only [stepJob] at h
  case dist J r i =>
    have hjw := jw_eq (r := r) (i := i) (by omega)
    split at h
    · rename_i hi
      split at h <;> cases h
      rename_i d hd
      refine dec_same hm hs (fun t' ht => put_stack_ne s ht _) (put_stack _ _ _) rfl rfl rfl rfl rfl ?_
      simp only [sw_cons, fw]
      rw [hjw, bw_eq hd]; omega
    · split at h <;> cases h
      refine dec_same hm hs (fun t' ht => put_stack_ne s ht _) (put_stack _ _ _) rfl rfl rfl rfl rfl ?_
      simp only [sw_cons, fw]
      rw [hjw]; omega
  case deqRead J r i =>
    cases h
    refine dec_same hm hs (fun t' ht => put_stack_ne s ht _) (put_stack _ _ _) rfl rfl rfl rfl rfl ?_
    simp only [sw_cons, fw]; omega
  case deqPop J r i q =>
    cases q <;> simp only [stepJob] at h
    · cases h
      refine dec_same hm hs (fun t' ht => put_stack_ne s ht _) (put_stack _ _ _) rfl rfl rfl rfl rfl ?_
      simp only [sw_cons, fw]; omega
    · split at h <;> cases h
      refine dec_same hm hs (fun t' ht => put_stack_ne s ht _) (put_stack _ _ _) rfl rfl rfl rfl rfl ?_
      simp only [sw_cons, fw]; omega
  case deqUnlock J r i q =>
    cases q <;> simp only at h <;> split at h <;> cases h
    · refine dec_same hm hs (fun t' ht => put_stack_ne s ht _) (put_stack _ _ _) rfl rfl rfl rfl rfl ?_
      simp only [sw_cons, fw]; omega
    · refine dec_same hm hs (fun t' ht => put_stack_ne s ht _) (put_stack _ _ _) rfl rfl rfl rfl rfl ?_
      simp only [sw_cons, fw]; omega
  case create J r i =>
    split at h <;> cases h
    rename_i ha
    have ha0 : s.alive fresh = false := by simpa using ha
    have hst0 : s.stack (.wk fresh) = [] := by
      have hw := I.wrk fresh
      cases ho : g.own fresh <;> simp only [WInv, ho] at hw
      · exact hw.2
      all_goals rw [ha0] at hw; exact absurd hw.1 (by simp)
    have htf : Tid.wk fresh ≠ t := by rintro rfl; rw [hs] at hst0; cases hst0
    refine hm.dec (t := t) (w0 := fresh) (fun t' h => ?_) (fun w hw => ?_) (fun w hw => ?_) ?_
    · by_cases h2 : t' = .wk fresh
      · right; subst h2; refine ⟨rfl, ?_, hst0⟩; simp [Function.update_of_ne htf, sw, fw]
      · left; simp [Function.update_of_ne h, Function.update_of_ne h2]
    · simp [Function.update_of_ne hw]
    · apply V_le
      · simp [Function.update_of_ne hw]
      · simp [Function.update_of_ne hw]
      · simp [Function.update_of_ne hw]
      · left; simp [slotW, Function.update_of_ne hw]
      · by_cases h2 : Tid.wk w = t
        · right; subst h2; simp [fetching]
        · left; simp [Function.update_of_ne h2, hw]
    · rw [V_dead ha0, hs]
      have e1 : V { s with
          stack := Function.update (Function.update s.stack (.wk fresh) [.wait]) t (.assign J r i fresh :: st)
          alive := Function.update s.alive fresh true
          ready := Function.update s.ready fresh 0
          done := Function.update s.done fresh 0
          slot := Function.update s.slot fresh none } fresh = 10 := by
        simp [V, Function.update_of_ne htf, fetching]
      rw [e1]
      simp only [Function.update_self, sw_cons, fw]; omega
  case assign J r i w =>
    split at h <;> cases h
    obtain ⟨ha, hr0, hst0⟩ := I.held hx.2
    have htw := I.job_ne hs rfl hst0
    refine dec_one (w0 := w) hm hs (fun t' ht => put_stack_ne s ht _) (put_stack _ _ _) (fun w hw => .inr rfl) (fun _ _ => rfl)
      (fun w hw => Function.update_of_ne hw _ _) (fun _ _ => rfl) (fun _ => .inl rfl) ?_
    have h1 : V s w = 10 := by
      simp [V, ha, hr0, hst0, fetching, I.not_killed hk ha (by rw [hx.2]; simp)]
    have h2 : V { s.put t (.upReady J r i :: st) with
        wq := Function.update s.wq J (Function.update (s.wq J) i (some w)), slot := Function.update s.slot w (some (.work J i)) } w = 10 := by
      simp [V, Sys.put, ha, hr0, Function.update_of_ne htw.symm, hst0, fetching]
    rw [h1, h2]
    simp only [sw_cons, fw]; omega
  case upReady J r i =>
    obtain ⟨hi, w, hw, ho, hsl⟩ := hx
    rw [hw] at h
    simp only at h
    split at h <;> cases h
    obtain ⟨ha, hr0, hst0⟩ := I.held ho
    have htw := I.job_ne hs rfl hst0
    refine dec_one (w0 := w) hm hs (fun t' ht => put_stack_ne s ht _) (put_stack _ _ _) (fun w hw => .inr rfl) (fun _ _ => rfl)
      (fun w hw => rfl) (fun _ hw => Function.update_of_ne hw _ _) (fun _ => .inl rfl) ?_
    have hjb := (I.job J t r _ hp).job
    have h1 : V s w = 10 := by simp [V, ha, hr0, hst0, fetching, hsl]
    have h2 : V { s.put t (.dist J r (i + 1) :: st) with ready := Function.update s.ready w (s.ready w + 1) } w = 10 + (bw r i + 6) := by
      simp [V, Sys.put, ha, hr0, Function.update_of_ne htw.symm, hst0, fetching, hsl, slotW, hjb]
    rw [h1, h2]
    simp only [sw_cons, fw]; omega
  case coll J r i =>
    split at h
    · cases h
      refine dec_less hm hs (fun t' ht => put_stack_ne s ht _) (put_stack _ _ _) hfe rfl rfl rfl (fun J' => ?_) ?_
      · by_cases hJ : J' = J
        · right; subst hJ; simp
        · left; simp [hJ]
      · simp only [sw_cons, fw]; omega
    · rename_i hi
      split at h
      · cases h
      · split at h
        · split at h <;> cases h
          refine dec_same hm hs (fun t' ht => put_stack_ne s ht _) (put_stack _ _ _) rfl rfl rfl rfl rfl ?_
          simp only [sw_cons, fw]; omega
        · cases h
  case enqLock J r i w =>
    split at h <;> cases h
    refine dec_same hm hs (fun t' ht => put_stack_ne s ht _) (put_stack _ _ _) rfl rfl rfl rfl rfl ?_
    simp only [sw_cons, fw]; omega
  case enqLink J r i w =>
    split at h <;> cases h
    refine dec_same hm hs (fun t' ht => put_stack_ne s ht _) (put_stack _ _ _) rfl rfl rfl rfl rfl ?_
    simp only [sw_cons, fw]; omega
  case enqSet J r i w =>
    cases h
    refine dec_same hm hs (fun t' ht => put_stack_ne s ht _) (put_stack _ _ _) rfl rfl rfl rfl rfl ?_
    simp only [sw_cons, fw]; omega
  case enqUnlock J r i =>
    split at h <;> cases h
    refine dec_same hm hs (fun t' ht => put_stack_ne s ht _) (put_stack _ _ _) rfl rfl rfl rfl rfl ?_
    simp only [sw_cons, fw]; omega

theorem dec_worker {n : ℕ} (I : Inv s g) (hm : HasM s n) {w : ℕ} {f : Frame} {st : List Frame} (hs : s.stack (.wk w) = f :: st)
    (hf : f = .wait ∨ f = .fetch ∨ f = .signal ∨ f = .exit) (h : stepWorker w s st f = .next s') : ∃ n' < n, HasM s' n' := by
  obtain rfl := I.wk_stack hs hf
  rcases hf with rfl | rfl | rfl | rfl <;> simp only [stepWorker] at h
  · split at h <;> [skip; cases h]
    rename_i ha
    split at h <;> cases h
    rename_i hr
    refine dec_one (w0 := w) hm hs (fun t' ht => put_stack_ne s ht _) (put_stack _ _ _) (fun w' hw => ?_) (fun _ _ => rfl)
      (fun w hw => rfl) (fun _ hw => Function.update_of_ne hw _ _) (fun _ => .inl rfl) ?_
    · left; cases hw; rfl
    · obtain ⟨k, hk⟩ : ∃ k, s.ready w = k + 1 := ⟨s.ready w - 1, by omega⟩
      have e : slotW { s.put (.wk w) [.fetch] with ready := Function.update s.ready w (s.ready w - 1) } w = slotW s w := rfl
      simp only [V, e]
      simp only [Sys.put, Function.update_self, ha, hs, hk, fetching, if_true, sw_cons, fw, sw_nil, Nat.add_sub_cancel, Nat.add_mul, Nat.one_mul]
      by_cases hkk : s.slot w = some .kill <;> simp [hkk] <;> omega
  · split at h <;> [skip; cases h]
    rename_i ha
    split at h
    · cases h
    · rename_i hsl
      split at h <;> cases h
      refine dec_one (w0 := w) hm hs (fun t' ht => put_stack_ne s ht _) (put_stack _ _ _) (fun w' hw => .inr rfl) (fun _ _ => rfl)
        (fun w hw => rfl) (fun _ hw => rfl) (fun _ => .inl rfl) ?_
      have e : slotW (s.put (.wk w) [.exit]) w = slotW s w := rfl
      simp only [V, e]
      simp [Sys.put, Function.update_self, ha, hs, fetching, sw_cons, fw, sw_nil, hsl, slotW]
      omega
    · rename_i J i hsl
      split at h
      · cases h
      · rename_i r hr
        split at h <;> cases h
        rename_i d hd
        refine dec_one (w0 := w) hm hs (fun t' ht => put_stack_ne s ht _) (put_stack _ _ _) (fun w' hw => .inr rfl) (fun _ _ => rfl)
          (fun w hw => rfl) (fun _ hw => rfl) (fun _ => .inl rfl) ?_
        have e : slotW { s.put (.wk w) [.run J i (r.body d), .signal] with log := .start J i d :: s.log } w = slotW s w := rfl
        have e2 : slotW s w = (r.body d).cost := by simp [slotW, hsl, hr, bw_eq hd]
        simp only [V, e, e2]
        simp [Sys.put, Function.update_self, ha, hs, fetching, sw_cons, fw, sw_nil, hsl]
        omega
  · split at h <;> cases h
    refine dec_same hm hs (fun t' ht => put_stack_ne s ht _) (put_stack _ _ _) rfl rfl rfl rfl rfl ?_
    simp [sw_cons, fw]
  · cases h
    refine dec_same hm hs (fun t' ht => put_stack_ne s ht _) (put_stack _ _ _) rfl rfl rfl rfl rfl ?_
    simp [sw_cons, fw, sw_nil]

theorem dec_kill {n : ℕ} (I : Inv s g) (hk : Killed s) (hm : HasM s n) {f : Frame} {st : List Frame} (hs : s.stack t = f :: st)
    (hf : f = .killLoop ∨ (∃ w, f = .killUp w) ∨ (∃ w, f = .killDown w) ∨ ∃ w, f = .killFree w) (h : stepKill t s st f = .next s') : ∃ n' < n, HasM s' n' := by
  obtain ⟨m, p, rfl, rfl, hv, hx⟩ := I.kill_top hs hf
  rcases hf with rfl | ⟨w, rfl⟩ | ⟨w, rfl⟩ | ⟨w, rfl⟩ <;> simp only [stepKill] at h
  · split at h
    · split at h <;> cases h
      refine dec_same hm hs (fun t' ht => put_stack_ne s ht _) (put_stack _ _ _) rfl rfl rfl rfl rfl ?_
      simp [sw_cons, fw, sw_nil]
    · rename_i w hw
      split at h <;> cases h
      rename_i ha
      have ho : g.own w = .queue := by
        have h1 := I.lst
        rw [hw] at h1
        apply (I.mem w).1
        cases hl : g.l with
        | nil => rw [hl] at h1; cases h1
        | cons a l => rw [hl] at h1; simp [IsList] at h1; simp [h1.1]
      have hwi := I.wrk w
      simp only [WInv, ho] at hwi
      refine dec_one (w0 := w) hm hs (fun t' ht => put_stack_ne s ht _) (put_stack _ _ _) (fun w' hw => .inr rfl) (fun _ _ => rfl)
        (fun w hw => Function.update_of_ne hw _ _) (fun _ hw => rfl) (fun _ => .inl rfl) ?_
      have h1 : V s w = 10 := by simp [V, hwi.1, hwi.2.1, hwi.2.2.2, fetching, I.not_killed hk ha (by rw [ho]; simp)]
      have h2 : V { s.put (.master m) (.killUp w :: [.app p]) with head := s.cdr w, slot := Function.update s.slot w (some .kill) } w = 0 := by
        simp [V, Sys.put, hwi.1, hwi.2.1, hwi.2.2.2, fetching]
      rw [h1, h2]
      simp [sw_cons, fw, sw_nil]; omega
  · split at h <;> cases h
    rename_i ha
    obtain ⟨_, _, _, hd, hr0, hst0⟩ := hx
    have hwi := I.wrk w
    simp only [WInv, hd] at hwi
    refine dec_one (w0 := w) hm hs (fun t' ht => put_stack_ne s ht _) (put_stack _ _ _) (fun w' hw => .inr rfl) (fun _ _ => rfl)
      (fun w hw => rfl) (fun _ hw => Function.update_of_ne hw _ _) (fun _ => .inl rfl) ?_
    have h1 : V s w = 0 := by simp [V, hwi.1, hwi.2.1, hst0, hr0, fetching]
    have h2 : V { s.put (.master m) (.killDown w :: [.app p]) with ready := Function.update s.ready w (s.ready w + 1) } w = 6 := by
      simp [V, Sys.put, hwi.1, hwi.2.1, hst0, hr0, fetching, slotW]
    rw [h1, h2]
    simp [sw_cons, fw, sw_nil]; omega
  · split at h <;> cases h
    refine dec_same hm hs (fun t' ht => put_stack_ne s ht _) (put_stack _ _ _) rfl rfl rfl rfl rfl ?_
    simp [sw_cons, fw, sw_nil]
  · split at h <;> cases h
    refine dec_one (w0 := w) hm hs (fun t' ht => put_stack_ne s ht _) (put_stack _ _ _) (fun w' hw => .inr rfl) (fun w hw => Function.update_of_ne hw _ _)
      (fun w hw => rfl) (fun _ hw => rfl) (fun _ => .inl rfl) ?_
    have h2 : V { s.put (.master m) (.killLoop :: [.app p]) with alive := Function.update s.alive w false } w = 0 := V_dead (by simp)
    rw [h2]
    simp [sw_cons, fw, sw_nil]; omega

theorem dec_code {n : ℕ} (I : Inv s g) (hm : HasM s n) {f : Frame} {st : List Frame} (hs : s.stack t = f :: st) (hf : (∃ p, f = .app p) ∨ ∃ J i p, f = .run J i p)
    (h : stepCode t s st f = .next s') : ∃ n' < n, HasM s' n' := by
  rcases hf with ⟨p, rfl⟩ | ⟨J, i, p, rfl⟩ <;> cases p <;> simp only [stepCode] at h
  · cases h
  · split at h
    · cases h
    · apply dec_spawn I hm hs (by simp) h
      simp only [fw, Prog.cost]; omega
  · split at h <;> cases h
    refine dec_same hm hs (fun t' ht => put_stack_ne s ht _) (put_stack _ _ _) rfl rfl rfl rfl rfl ?_
    simp [sw_cons, fw, Prog.cost]; omega
  · cases h
    have hfe : fetching st = false := by
      have := I.stk t
      rw [hs] at this
      cases this with
      | worker w hw hf => simp at hf
      | job hj => simp [jphase] at hj
      | run hr => cases hr <;> rfl
      | kill m hm hx => rfl
    refine dec_same hm hs (fun t' ht => put_stack_ne s ht _) (put_stack _ _ _) hfe rfl rfl rfl rfl ?_
    simp [sw_cons, fw, Prog.cost]
  · apply dec_spawn I hm hs (by simp) h
    simp only [fw, Prog.cost]; omega
  · cases h

theorem step_dec {n : ℕ} (I : Inv s g) (hk : Killed s) (hm : HasM s n) {fresh : ℕ} (h : step t fresh s = .next s') : ∃ n' < n, HasM s' n' := by
  unfold step at h
  split at h
  · cases h
  rename_i f st hs
  cases f
  case app p => exact dec_code I hm hs (.inl ⟨p, rfl⟩) h
  case run J i p => exact dec_code I hm hs (.inr ⟨J, i, p, rfl⟩) h
  case killLoop => exact dec_kill I hk hm hs (.inl rfl) h
  case killUp w => exact dec_kill I hk hm hs (.inr (.inl ⟨w, rfl⟩)) h
  case killDown w => exact dec_kill I hk hm hs (.inr (.inr (.inl ⟨w, rfl⟩))) h
  case killFree w => exact dec_kill I hk hm hs (.inr (.inr (.inr ⟨w, rfl⟩))) h
  case wait | fetch | signal | exit =>
    simp only at h
    split at h
    · exact dec_worker I hm hs (by simp) h
    · cases h
  all_goals exact dec_job I hk hm hs rfl h

theorem init_m (progs : List Prog) : HasM (init progs) (progs.map Prog.cost).sum := by
  refine ⟨(Finset.range progs.length).map ⟨Tid.master, fun a b h => by cases h; rfl⟩, ∅, ?_, fun _ _ => rfl, ?_⟩
  · intro t ht
    cases t with
    | wk w => rfl
    | master m =>
      have : progs[m]? = none := by
        rw [List.getElem?_eq_none_iff]
        by_contra hlt
        exact ht (Finset.mem_map.2 ⟨m, by simpa using hlt, rfl⟩)
      simp [init, this]
  · rw [Finset.sum_map]
    simp only [Function.Embedding.coeFn_mk, Finset.sum_empty, Nat.add_zero]
    have : ∀ l : List Prog, (l.map Prog.cost).sum = ∑ x ∈ Finset.range l.length, ((l[x]?).map Prog.cost).getD 0 := by
      intro l
      induction l with
      | nil => rfl
      | cons a l ih => rw [List.length_cons, Finset.sum_range_succ']; simp [ih, Nat.add_comm]
    rw [this]
    apply Finset.sum_congr rfl
    intro m hm
    have : progs[m]? = some (progs[m]'(by simpa using hm)) := List.getElem?_eq_getElem _
    show _ = sw ((init progs).stack (.master m))
    simp [init, this, sw, fw]

theorem Exec.killed {progs : List Prog} (hv : ∀ p ∈ progs, p.Valid) {n : ℕ} (h : Exec progs n s) : Killed s := by
  induction h with
  | start => intro w hw; cases hw
  | step t fresh he hs ih =>
    obtain ⟨g, I⟩ := he.inv hv
    exact step_killed I ih hs

theorem Exec.bound {progs : List Prog} (hv : ∀ p ∈ progs, p.Valid) {n : ℕ} (h : Exec progs n s) : ∃ m, HasM s m ∧ n + m ≤ (progs.map Prog.cost).sum := by
  induction h with
  | start => exact ⟨_, init_m progs, by omega⟩
  | step t fresh he hs ih =>
    obtain ⟨g, I⟩ := he.inv hv
    obtain ⟨m, hm, hle⟩ := ih
    obtain ⟨m', hlt, hm'⟩ := step_dec I (he.killed hv) hm hs
    exact ⟨m', hm', by omega⟩

end FFTW.Pool
