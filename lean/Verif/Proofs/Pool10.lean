import Verif.Proofs.Pool9
/-!
# The thread pool: every step decreases the remaining cost
-/

namespace FFTW.Pool
open FFTW.Spawn

variable {s s' : Sys} {g g' : Ghost} {t : Tid}

/-- a live worker is told to stop only by `kill_workforce`, which then waits for it -/
def Killed (s : Sys) : Prop := ∀ w, s.alive w = true → s.slot w = some .kill → ∃ m f st, s.stack (.master m) = f :: st ∧ (f = .killUp w ∨ f = .killDown w ∨ f = .killFree w)

theorem killed_same {f : Frame} {st st' : List Frame} (hk : Killed s) (hs : s.stack t = f :: st) (hst : ∀ t', t' ≠ t → s'.stack t' = s.stack t' ∨ ∃ w, t' = .wk w) (hst' : s'.stack t = st')
    (hf : (∀ w, f ≠ .killUp w ∧ f ≠ .killDown w ∧ f ≠ .killFree w) ∨ ∃ w f' st1, st' = f' :: st1 ∧ (f = .killUp w ∨ f = .killDown w) ∧ (f' = .killDown w ∨ f' = .killFree w))
    (ha : ∀ w, s'.alive w = true → s'.slot w = some .kill → s.alive w = true ∧ s.slot w = some .kill) : Killed s' := by
  intro w hw hsl
  obtain ⟨ha, hl⟩ := ha w hw hsl
  obtain ⟨m, f1, st1, h1, h2⟩ := hk w ha hl
  by_cases hm : Tid.master m = t
  · subst hm
    rw [hs] at h1
    obtain ⟨rfl, rfl⟩ := List.cons.inj h1
    rcases hf with hf | ⟨w', f', st2, rfl, h3, h4⟩
    · have := hf w; tauto
    · have : w' = w := by
        rcases h3 with rfl | rfl <;> rcases h2 with h2 | h2 | h2 <;> cases h2 <;> rfl
      subst this
      exact ⟨m, f', st2, hst', by tauto⟩
  · refine ⟨m, f1, st1, ?_, h2⟩
    rcases hst _ hm with h | ⟨w, h⟩
    · rw [h]; exact h1
    · cases h

theorem put_stack (s : Sys) (t : Tid) (st : List Frame) : (s.put t st).stack t = st := by simp [Sys.put]
theorem put_stack_ne (s : Sys) {t t' : Tid} (h : t' ≠ t) (st : List Frame) : (s.put t st).stack t' = s.stack t' := by simp [Sys.put, h]

theorem spawn_next {st : List Frame} {lm n : ℤ} {body : SpawnData → Prog} (h : spawn t s st lm n body = .next s') :
    s'.alive = s.alive ∧ s'.slot = s.slot ∧ s'.ready = s.ready ∧ (∀ t', t' ≠ t → s'.stack t' = s.stack t') ∧ (∀ J, J ≠ s.nextJob → s'.jobs J = s.jobs J) ∧
    ∃ ds, spawnLoop lm n = some ds ∧ (ds = [] ∧ s'.stack t = st ∨ s'.stack t = .dist s.nextJob ⟨ds, body⟩ 0 :: st) := by
  unfold spawn at h
  split at h
  · cases h
  · rename_i hd
    cases h
    refine ⟨rfl, rfl, rfl, fun t' ht => put_stack_ne s ht _, fun J hJ => rfl, [], hd, .inl ⟨rfl, put_stack _ _ _⟩⟩
  · rename_i ds hne hd
    cases h
    refine ⟨rfl, rfl, rfl, fun t' ht => put_stack_ne s ht _, fun J hJ => ?_, ds, hd, .inr (put_stack _ _ _)⟩
    simp [hJ]

theorem step_killed (I : Inv s g) (hk : Killed s) {fresh : ℕ} (h : step t fresh s = .next s') : Killed s' := by
  unfold step at h
  split at h
  · cases h
  rename_i f st hs
  cases f <;> simp only at h
  case app p =>
    cases p <;> simp only [stepCode] at h
    · cases h
    · split at h
      · cases h
      · obtain ⟨ha, hl, _, h1, _, ds, _, _⟩ := spawn_next h
        exact killed_same hk hs (fun t' ht => .inl (h1 t' ht)) rfl (.inl (by simp)) (by rw [ha, hl]; exact fun w a b => ⟨a, b⟩)
    · split at h
      · cases h
      · cases h
        exact killed_same hk hs (fun t' ht => .inl (put_stack_ne s ht _)) rfl (.inl (by simp)) (fun w a b => ⟨a, b⟩)
  case run J i p =>
    cases p <;> simp only [stepCode] at h
    · cases h
      exact killed_same hk hs (fun t' ht => .inl (put_stack_ne s ht _)) rfl (.inl (by simp)) (fun w a b => ⟨a, b⟩)
    · obtain ⟨ha, hl, _, h1, _, ds, _, _⟩ := spawn_next h
      exact killed_same hk hs (fun t' ht => .inl (h1 t' ht)) rfl (.inl (by simp)) (by rw [ha, hl]; exact fun w a b => ⟨a, b⟩)
    · cases h
  case wait | signal | exit =>
    split at h <;> [skip; cases h]
    simp only [stepWorker] at h
    repeat' split at h
    all_goals first
      | cases h; done
      | (cases h
         exact killed_same hk hs (fun t' ht => .inl (put_stack_ne s ht _)) rfl (.inl (by simp)) (fun w a b => ⟨a, b⟩))
  case fetch =>
    split at h <;> [skip; cases h]
    simp only [stepWorker] at h
    repeat' split at h
    all_goals first
      | cases h; done
      | (cases h
         exact killed_same hk hs (fun t' ht => .inl (put_stack_ne s ht _)) rfl (.inl (by simp)) (fun w a b => ⟨a, b⟩))
  case killLoop =>
    simp only [stepKill] at h
    split at h
    · split at h <;> cases h
      exact killed_same hk hs (fun t' ht => .inl (put_stack_ne s ht _)) rfl (.inl (by simp)) (fun w a b => ⟨a, b⟩)
    · rename_i w hw
      split at h <;> cases h
      obtain ⟨m, p, hm, rfl, -⟩ := I.kill_top hs (.inl rfl)
      subst hm
      intro w' ha hl
      by_cases hw : w' = w
      · subst hw
        exact ⟨m, _, _, put_stack _ _ _, .inl rfl⟩
      · simp only [Function.update_of_ne hw] at hl
        obtain ⟨m', f, st, h1, h2⟩ := hk w' ha hl
        refine ⟨m', f, st, ?_, h2⟩
        have : Tid.master m' ≠ .master m := by
          intro e; rw [e, hs] at h1; obtain ⟨rfl, rfl⟩ := List.cons.inj h1; simp at h2
        exact (put_stack_ne s this _).trans h1
  case killUp w =>
    simp only [stepKill] at h
    split at h <;> cases h
    exact killed_same hk hs (fun t' ht => .inl (put_stack_ne s ht _)) (put_stack _ _ _) (.inr ⟨w, _, _, rfl, .inl rfl, .inl rfl⟩) (fun w a b => ⟨a, b⟩)
  case killDown w =>
    simp only [stepKill] at h
    split at h <;> cases h
    exact killed_same hk hs (fun t' ht => .inl (put_stack_ne s ht _)) (put_stack _ _ _) (.inr ⟨w, _, _, rfl, .inr rfl, .inr rfl⟩) (fun w a b => ⟨a, b⟩)
  case killFree w =>
    simp only [stepKill] at h
    split at h <;> cases h
    intro w' ha hl
    have hw : w' ≠ w := by rintro rfl; simp at ha
    simp only [Function.update_of_ne hw] at ha
    obtain ⟨m', f, st', h1, h2⟩ := hk w' ha hl
    refine ⟨m', f, st', ?_, h2⟩
    have : Tid.master m' ≠ t := by
      intro e; rw [e, hs] at h1; obtain ⟨rfl, rfl⟩ := List.cons.inj h1; simp at h2; exact hw h2.symm
    exact (put_stack_ne s this _).trans h1
  case create J r i =>
    simp only [stepJob] at h
    split at h <;> cases h
    rename_i hfr
    refine killed_same hk hs (fun t' ht => ?_) rfl (.inl (by simp)) (fun w a b => ?_)
    · by_cases hw : t' = .wk fresh
      · exact .inr ⟨_, hw⟩
      · left; simp [Function.update_of_ne ht, Function.update_of_ne hw]
    · have : w ≠ fresh := by rintro rfl; simp at b
      simp only [Function.update_of_ne this] at a b
      exact ⟨a, b⟩
  case assign J r i w =>
    simp only [stepJob] at h
    split at h <;> cases h
    refine killed_same hk hs (fun t' ht => .inl (put_stack_ne s ht _)) rfl (.inl (by simp)) (fun w' a b => ?_)
    have : w' ≠ w := by rintro rfl; simp at b
    simp only [Function.update_of_ne this] at b
    exact ⟨a, b⟩
  case deqPop J r i q =>
    cases q <;> simp only [stepJob] at h
    · cases h
      exact killed_same hk hs (fun t' ht => .inl (put_stack_ne s ht _)) rfl (.inl (by simp)) (fun w a b => ⟨a, b⟩)
    · split at h <;> cases h
      exact killed_same hk hs (fun t' ht => .inl (put_stack_ne s ht _)) rfl (.inl (by simp)) (fun w a b => ⟨a, b⟩)
  all_goals
    simp only [stepJob] at h
    repeat' split at h
    all_goals first
      | cases h; done
      | (cases h
         exact killed_same hk hs (fun t' ht => .inl (put_stack_ne s ht _)) rfl (.inl (by simp)) (fun w a b => ⟨a, b⟩))

theorem fetching_ne {f : Frame} {st : List Frame} (h : f ≠ .fetch) : fetching (f :: st) = false := by
  unfold fetching; split <;> simp_all

/-- steps that only move a thread -/
theorem dec_same {n : ℕ} {f : Frame} {st st' : List Frame} (hm : HasM s n) (hs : s.stack t = f :: st) (hst : ∀ t', t' ≠ t → s'.stack t' = s.stack t') (hst' : s'.stack t = st')
    (hf : fetching st' = false) (ha : s'.alive = s.alive) (hl : s'.slot = s.slot) (hr : s'.ready = s.ready) (hj : s'.jobs = s.jobs) (hlt : sw st' < sw (f :: st)) :
    ∃ n' < n, HasM s' n' := by
  have hV : ∀ w, V s' w ≤ V s w := by
    intro w
    apply V_le (by rw [ha]) (by rw [hl]) (by rw [hr]) (.inl (by simp only [slotW, hl, hj]; exact Nat.le_refl _))
    by_cases h : Tid.wk w = t
    · right; rw [h, hst']; exact hf
    · left; exact hst _ h
  refine hm.dec (t := t) (w0 := 0) (fun t' h => .inl (hst t' h)) (fun w _ => by rw [ha]) (fun w _ => hV w) ?_
  have := hV 0
  rw [hst', hs]; omega

/-- a worker that has been told to run something and has not started yet -/
theorem Inv.pending (I : Inv s g) {w : ℕ} (h : s.ready w ≠ 0 ∨ fetching (s.stack (.wk w)) = true) (ha : s.alive w = true) :
    s.slot w = some .kill ∨ ∃ J i x, s.slot w = some (.work J i) ∧ g.ph J = some x := by
  have hw := I.wrk w
  cases ho : g.own w with
  | dead => simp only [WInv, ho] at hw; rw [hw.1] at ha; cases ha
  | queue => simp only [WInv, ho] at hw; simp [hw.2.1, hw.2.2.2, fetching] at h
  | held t => simp only [WInv, ho] at hw; simp [hw.2.1, hw.2.2.2.1, fetching] at h
  | asg J i =>
    simp only [WInv, ho] at hw
    obtain ⟨t, r, φ, h1, _⟩ := hw.2.2.2.1
    exact .inr ⟨J, i, _, hw.2.2.1, h1⟩
  | dying => simp only [WInv, ho] at hw; exact .inl hw.2.1

theorem sw_cons (f : Frame) (st : List Frame) : sw (f :: st) = fw f + sw st := by simp [sw]
theorem sw_nil : sw [] = 0 := rfl

theorem V_dead {w : ℕ} (h : s.alive w = false) : V s w = 0 := by simp [V, h]

/-- entry of `spawn_loop` -/
theorem dec_spawn {n : ℕ} (I : Inv s g) {f f' : Frame} {st : List Frame} {lm k : ℤ} {body : SpawnData → Prog} (hm : HasM s n) (hs : s.stack t = f :: st)
    (hf' : f' ≠ .fetch) (h : spawn t s (f' :: st) lm k body = .next s')
    (hlt : fw f' + 2 + (((spawnLoop lm k).getD []).map fun d => (body d).cost + 30).sum ≤ fw f) : ∃ n' < n, HasM s' n' := by
  obtain ⟨ha, hl, hr, hst, hj, ds, hds, h1⟩ := spawn_next h
  rw [hds] at hlt
  simp only [Option.getD_some] at hlt
  have hfe : fetching (s'.stack t) = false := by
    rcases h1 with ⟨_, h1⟩ | h1 <;> rw [h1]
    · exact fetching_ne hf'
    · rfl
  have hV : ∀ w, V s' w ≤ V s w := by
    intro w
    by_cases haw : s.alive w = true
    · have h2 : slotW s' w ≤ slotW s w ∨ s.ready w = 0 ∧ fetching (s.stack (.wk w)) = false := by
        by_cases h0 : s.ready w = 0 ∧ fetching (s.stack (.wk w)) = false
        · exact .inr h0
        · left
          rcases I.pending (w := w) (by cases h3 : fetching (s.stack (.wk w)) <;> simp_all) haw with h3 | ⟨J, i, x, h3, h4⟩
          · simp [slotW, hl, h3]
          · have := I.lt h4
            simp only [slotW, hl, h3, hj J (by omega)]; exact Nat.le_refl _
      apply V_le (by rw [ha]) (by rw [hl]) (by rw [hr]) h2
      by_cases h : Tid.wk w = t
      · right; rw [h]; exact hfe
      · left; exact hst _ h
    · have h0 : s.alive w = false := by simpa using haw
      rw [V_dead (s := s') (by rw [ha]; exact h0)]; omega
  refine hm.dec (t := t) (w0 := 0) (fun t' h => .inl (hst t' h)) (fun w _ => by rw [ha]) (fun w _ => hV w) ?_
  have := hV 0
  rw [hs, sw_cons]
  rcases h1 with ⟨_, h1⟩ | h1 <;> rw [h1] <;> simp only [sw_cons]
  · omega
  · have : fw (.dist s.nextJob ⟨ds, body⟩ 0) = (ds.map fun d => (body d).cost + 30).sum + 1 := by simp [fw, jw]
    omega

theorem bw_eq {r : Job} {i : ℕ} {d : SpawnData} (h : r.blocks[i]? = some d) : bw r i = (r.body d).cost := by simp [bw, h]

end FFTW.Pool
