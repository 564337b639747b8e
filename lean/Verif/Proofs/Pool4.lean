import Verif.Proofs.Pool3
/-!
# Preservation of the thread-pool invariant: calls, blocks, workers
-/

namespace FFTW.Pool
open FFTW.Spawn

variable {s s' : Sys} {g g' : Ghost} {t : Tid}

/-- a call of `spawn_loop` by code whose stack is `f :: st0`; afterwards it returns to `f' :: st0` -/
theorem inv_spawn (I : Inv s g) {f f' : Frame} {st0 : List Frame} (hs : s.stack t = f :: st0) (hc : s.cleaning = false)
    (hf : ∀ J, ¬ ofJob J f) (hcr : ¬ crit f) (hh : ∀ w, ¬ Holds s f w)
    (hret : Ret g t s.nextJob (f' :: st0)) (hsok : SOK s g t (f' :: st0)) (hwk : ∀ w, t = .wk w → st0 ≠ [])
    {lm n : ℤ} {body : SpawnData → Prog} {ds : List SpawnData} (hsp : spawnLoop lm n = some ds) (hin : ∀ d ∈ ds, (body d).Inner)
    (hsp' : spawn t s (f' :: st0) lm n body = .next s') : ∃ g', Inv s' g' := by
  have hnx := I.nxt s.nextJob (Nat.le_refl _)
  cases ds with
  | nil =>
    simp only [spawn, hsp, Res.next.injEq] at hsp'
    subst hsp'
    set s' : Sys := { s.put t (f' :: st0) with nextJob := s.nextJob + 1, log := .ret s.nextJob :: .enter s.nextJob lm n :: s.log }
    refine ⟨{ g with info := Function.update g.info s.nextJob (some []) }, ?_⟩
    set g' : Ghost := { g with info := Function.update g.info s.nextJob (some []) }
    have hlg : ∀ J' i', ns s'.log J' i' = ns s.log J' i' ∧ nf s'.log J' i' = nf s.log J' i' := by
      intro J' i'
      have h1 := ns_ret (.enter s.nextJob lm n :: s.log) s.nextJob J' i'
      have h2 := ns_enter s.log s.nextJob J' i' lm n
      exact ⟨h1.1.trans h2.1, h1.2.trans h2.2⟩
    refine inv_ph I (s' := s') (g' := g') ⟨rfl, rfl, rfl, rfl, rfl, rfl, rfl, rfl, rfl⟩ hs hc hcr (fun _ => False) s.nextJob (by simp) rfl (fun _ _ => rfl) (fun _ _ => rfl)
      (fun J' h => Function.update_of_ne h _ _) (.inl rfl) (Nat.le_succ _) (Nat.lt_succ_self _) rfl (fun w _ => ⟨rfl, rfl, rfl⟩) (fun _ h => h.elim) (fun _ h => h.elim) (fun _ h => h.elim)
      (fun _ h => h.elim) ?_ ?_ (fun J' _ i' => hlg J' i') ?_ ?_ ?_ (fun _ h => h.elim) ?_ ?_ ?_
    · intro w h; exact I.no_held hs hh w h
    · intro w e _; have := hwk w e; cases st0 <;> simp_all
    · intro J' hJ' fr hfr ho
      rcases List.mem_cons.1 hfr with rfl | hfr
      · exact absurd ho (hf J')
      · simp [hfr]
    · intro w i' _ ho
      obtain ⟨t1, r1, φ1, h1⟩ := I.asg_ph ho
      have := I.lt h1
      omega
    · exact hsok.congr (fun _ _ _ _ => rfl) (fun _ _ _ _ _ _ => rfl) (fun w h => ⟨h, rfl, rfl⟩) (fun _ _ _ _ => rfl) (fun h => ⟨h, rfl⟩)
        (fun f h => absurd h (I.kx hc))
    · intro t1 r1 φ1 h1
      have h1 : g.ph s.nextJob = _ := h1
      rw [hnx.1] at h1; cases h1
    · intro _; exact I.noj _ hnx.1
    · have h1 : LInv { s with log := .enter s.nextJob lm n :: s.log } g' :=
        I.log.enter (J := s.nextJob) rfl hsp (fun _ h => h) rfl hnx.2 (.inr rfl)
      refine h1.returns (J := s.nextJob) rfl (fun J' _ h' => h') rfl (ds := []) (Function.update_self ..) ?_
      intro i'
      refine ⟨fun h => absurd h (by simp), fun _ => ?_⟩
      have h2 := ns_enter s.log s.nextJob s.nextJob i' lm n
      show ns (.enter s.nextJob lm n :: s.log) _ _ = 0 ∧ nf (.enter s.nextJob lm n :: s.log) _ _ = 0
      rw [h2.1, h2.2]
      exact I.log.zero _ i' hnx.2
  | cons d ds =>
    simp only [spawn, hsp, Res.next.injEq] at hsp'
    subst hsp'
    set J := s.nextJob with hJdef
    set r : Job := ⟨d :: ds, body⟩
    set s' : Sys := { s.put t (.dist J r 0 :: f' :: st0) with
      jobs := Function.update s.jobs J (some r)
      nextJob := J + 1
      log := .enter J lm n :: s.log }
    refine ⟨{ g with info := Function.update g.info J (some (d :: ds)), ph := Function.update g.ph J (some (t, r, .dist 0)) }, ?_⟩
    set g' : Ghost := { g with info := Function.update g.info J (some (d :: ds)), ph := Function.update g.ph J (some (t, r, .dist 0)) }
    have hpJ : g'.ph J = some (t, r, .dist 0) := Function.update_self ..
    have hpn : ∀ J', J' ≠ J → g'.ph J' = g.ph J' := fun J' h => Function.update_of_ne h _ _
    refine inv_ph I (s' := s') (g' := g') ⟨rfl, rfl, rfl, rfl, rfl, rfl, rfl, rfl, rfl⟩ hs hc hcr (fun _ => False) J (by simp) rfl hpn
      (fun J' h => Function.update_of_ne h _ _)
      (fun J' h => Function.update_of_ne h _ _) (.inr ?_) (Nat.le_succ _) (Nat.lt_succ_self _) rfl (fun w _ => ⟨rfl, rfl, rfl⟩) (fun _ h => h.elim) (fun _ h => h.elim) (fun _ h => h.elim)
      (fun _ h => h.elim) ?_ ?_ (fun J' _ i' => ns_enter ..) ?_ ?_ ?_ (fun _ h => h.elim) ?_ ?_ ?_
    · intro t' r' φ' h; rw [hnx.1] at h; cases h
    · intro w h; exact I.no_held hs hh w h
    · intro w e _; have := hwk w e; cases st0 <;> simp_all
    · intro J' hJ' fr hfr ho
      rcases List.mem_cons.1 hfr with rfl | hfr
      · exact absurd ho (hf J')
      · simp [hfr]
    · intro w i' _ ho
      obtain ⟨t1, r1, φ1, h1⟩ := I.asg_ph ho
      have := I.lt h1
      omega
    · refine .job (J := J) (r := r) (φ := .dist 0) rfl hpJ (by simp [FX, r]) (hret.congr (fun J' hJ' r φ h => hpn J' (by omega)) (fun _ _ _ _ _ => rfl))
    · intro t1 r1 φ1 h1
      rw [hpJ] at h1
      simp only [Option.some.injEq, Prod.mk.injEq] at h1
      obtain ⟨rfl, rfl, rfl⟩ := h1
      refine ⟨Function.update_self .., hin, by simp [r], Function.update_self .., ?_, ?_, ?_⟩
      · exact ⟨.dist J r 0, by simp [s', Sys.put], r, _, rfl⟩
      · intro i' h; simp [Phase.out] at h
      · simp only [Cnt]
        intro i' _
        have h2 := ns_enter s.log J J i' lm n
        show ns (.enter J lm n :: s.log) _ _ = 0 ∧ nf (.enter J lm n :: s.log) _ _ = 0
        rw [h2.1, h2.2]
        exact I.log.zero _ i' hnx.2
    · intro h; rw [hpJ] at h; cases h
    · refine I.log.enter (J := J) rfl hsp (fun J' h => ?_) rfl hnx.2 (.inl ?_)
      · by_cases hJ : J' = J
        · rw [hJ]; exact hnx.1
        · rw [← hpn J' hJ]; exact h
      · rw [hpJ]; simp

theorem finish_cnt (l : List Event) (J i J' i' : ℕ) : (J' = J ∧ i' = i) ∨ (ns (.finish J i :: l) J' i' = ns l J' i' ∧ nf (.finish J i :: l) J' i' = nf l J' i') := by
  by_cases h : J' = J ∧ i' = i
  · exact .inl h
  · right
    rw [ns_cons, nf_cons]
    simp only [isStart, Bool.false_eq_true, if_false, Nat.add_zero, true_and, Event.finish.injEq]
    rw [if_neg (by rintro ⟨rfl, rfl⟩; exact h ⟨rfl, rfl⟩)]; rfl

theorem start_cnt (l : List Event) (J i : ℕ) (d : SpawnData) (J' i' : ℕ) :
    (J' = J ∧ i' = i) ∨ (ns (.start J i d :: l) J' i' = ns l J' i' ∧ nf (.start J i d :: l) J' i' = nf l J' i') := by
  by_cases h : J' = J ∧ i' = i
  · exact .inl h
  · right
    rw [ns_cons, nf_cons]
    simp only [isStart, Bool.and_eq_true, beq_iff_eq, reduceCtorEq, if_false, Nat.add_zero, and_true]
    rw [if_neg (by rintro ⟨rfl, rfl⟩; exact h ⟨rfl, rfl⟩)]; rfl

/-- `proc` returns to `spawn_loop` -/
theorem inv_doneSelf (I : Inv s g) {st : List Frame} {J i : ℕ} {r : Job} {p : Prog} (hs : s.stack t = .run J i p :: .coll J r 0 :: st)
    (hp : g.ph J = some (t, r, .self)) (hi : i + 1 = r.blocks.length) (hr : Ret g t J st) :
    ∃ g', Inv { s.put t (.coll J r 0 :: st) with log := .finish J i :: s.log } g' := by
  have hc := I.active hp
  have hJ := I.job J t r _ hp
  set s' : Sys := { s.put t (.coll J r 0 :: st) with log := .finish J i :: s.log }
  refine ⟨{ g with ph := Function.update g.ph J (some (t, r, .coll 0)) }, ?_⟩
  set g' : Ghost := { g with ph := Function.update g.ph J (some (t, r, .coll 0)) }
  have hpJ : g'.ph J = some (t, r, .coll 0) := Function.update_self ..
  have hpn : ∀ J', J' ≠ J → g'.ph J' = g.ph J' := fun J' h => Function.update_of_ne h _ _
  have h0 := hJ.cnt
  simp only [Cnt] at h0
  refine inv_ph I (s' := s') (g' := g') ⟨rfl, rfl, rfl, rfl, rfl, rfl, rfl, rfl, rfl⟩ hs hc (by simp [crit]) (fun _ => False) J (by simp) rfl hpn (fun _ _ => rfl) (fun _ _ => rfl)
    (.inr ?_) (Nat.le_refl _) (I.lt hp) rfl (fun w _ => ⟨rfl, rfl, rfl⟩) (fun _ h => h.elim) (fun _ h => h.elim) (fun _ h => h.elim) (fun _ h => h.elim) ?_ ?_ ?_ ?_ ?_ ?_
    (fun _ h => h.elim) ?_ ?_ ?_
  · intro t' r' φ' h
    rw [hp] at h; simp only [Option.some.injEq, Prod.mk.injEq] at h; exact h.1.symm
  · intro w h; exact I.no_held hs (by simp [Holds]) w h
  · intro w _ _; have := hr.ne_nil; cases st <;> simp_all
  · intro J' hJ' i'
    rcases finish_cnt s.log J i J' i' with h | h
    · exact absurd h.1 hJ'
    · exact h
  · intro J' hJ' fr hfr ho
    rcases List.mem_cons.1 hfr with rfl | hfr
    · obtain ⟨r', φ', h⟩ := ho
      simp [jphase] at h
    · exact hfr
  · intro w i' _ ho
    have h2 := (I.asg_phase ho hp).1
    simp only [Phase.out] at h2
    refine ⟨fun t2 r2 φ2 _ _ => ⟨t, r, _, hpJ, by simp only [Phase.out]; omega⟩, ?_⟩
    rcases finish_cnt s.log J i J i' with h | h
    · omega
    · exact h
  · exact .job (J := J) (r := r) (φ := .coll 0) rfl hpJ (by simp only [FX]; omega) (hr.congr (fun J' hJ' r φ h => hpn J' (by omega)) (fun _ _ _ _ _ => rfl))
  · intro t1 r1 φ1 h1
    rw [hpJ] at h1
    simp only [Option.some.injEq, Prod.mk.injEq] at h1
    obtain ⟨rfl, rfl, rfl⟩ := h1
    refine ⟨hJ.job, hJ.ok, hJ.ne, hJ.info, ?_, ?_, ?_⟩
    · exact ⟨.coll J r 0, by simp [s', Sys.put], r, _, rfl⟩
    · intro i' h; exact hJ.out i' (by simp only [Phase.out] at h ⊢; omega)
    · simp only [Cnt]
      refine ⟨fun i' hi' hi2 => ?_, fun i' hi' => ?_⟩
      · obtain rfl : i' = i := by omega
        show ns (.finish J i' :: s.log) J i' = _ ∧ nf (.finish J i' :: s.log) J i' = _
        rw [ns_cons, nf_cons, (h0.1 i' hi).1, (h0.1 i' hi).2]
        simp [isStart]
      · rcases finish_cnt s.log J i J i' with h | h
        · omega
        · show ns (.finish J i :: s.log) J i' = _ ∧ nf (.finish J i :: s.log) J i' = _
          rw [h.1, h.2]; exact h0.2 i' hi'
  · intro h; rw [hpJ] at h; cases h
  · refine I.log.finish (J := J) (i := i) rfl ?_ rfl hJ.info (h0.1 i hi).1
    intro J' h
    have : J' ≠ J := by rintro rfl; rw [hpJ] at h; cases h
    exact ⟨by rw [← hpn J' this]; exact h, this⟩

/-- Steps of a worker with an assigned block: it moves from one stage to the next. -/
theorem inv_stage (I : Inv s g) {w J i : ℕ} {f : Frame} {st st' : List Frame} {rd dn : ℕ} {lg : List Event} (hs : s.stack (.wk w) = f :: st)
    (hcr : ¬ crit f) (hh : ∀ w, ¬ Holds s f w) (hf : ∀ J, ∀ fr ∈ f :: st, ¬ ofJob J fr) (ho : g.own w = .asg J i)
    (hs' : s' = { s.put (.wk w) st' with ready := Function.update s.ready w rd, done := Function.update s.done w dn, log := lg })
    (hlg : ∀ J' i', (J' = J ∧ i' = i) ∨ (ns lg J' i' = ns s.log J' i' ∧ nf lg J' i' = nf s.log J' i'))
    (hst : Stage s' w J i) (hsok : SOK s' g (.wk w) st') (hL : LInv s' g) : Inv s' g := by
  obtain ⟨t', r, φ, hp⟩ := I.asg_ph ho
  have hc := I.active hp
  have hJ := I.job J t' r φ hp
  obtain ⟨hout, hwq, hsl, ha, hst0⟩ := I.asg_phase ho hp
  have huni : ∀ w' , g.own w' = .asg J i → w' = w := fun w' h => by
    have := (I.asg_phase h hp).2.1
    rw [hwq] at this; exact (Option.some.inj this).symm
  have hlg' : s'.log = lg := by rw [hs']
  refine inv_ph I (s' := s') (g' := g) ?_ hs hc hcr (fun w' => w' = w) J (by intro m h; cases h) (by rw [hs']; rfl) (fun _ _ => rfl) (by intro J' _; rw [hs']; rfl) (fun _ _ => rfl) (.inl rfl)
    (by rw [hs']; exact Nat.le_refl _) (by rw [hs']; exact I.lt hp) rfl ?_ (fun _ _ => .inl rfl) ?_ ?_ (fun _ _ _ _ _ h => h) ?_ ?_ ?_ ?_ ?_ hsok ?_ ?_ ?_ hL
  · rw [hs']; exact ⟨rfl, rfl, rfl, rfl, rfl, rfl, rfl, rfl, rfl⟩
  · intro w' h
    rw [hs']
    exact ⟨rfl, Function.update_of_ne h _ _, Function.update_of_ne h _ _⟩
  · rintro _ rfl t' h; rw [ho] at h; cases h
  · rintro _ rfl; rw [ho]; simp
  · intro w' h; exact absurd h (I.no_held hs hh w')
  · intro w' e hne; injection e with e; exact absurd e.symm hne
  · intro J' hJ' i'
    rw [hlg']
    rcases hlg J' i' with h | h
    · exact absurd h.1 hJ'
    · exact h
  · intro J' hJ' fr hfr ho; exact absurd ho (hf J' fr hfr)
  · intro w' i' hne ho'
    refine ⟨fun t r φ h1 h2 => ⟨t, r, φ, h1, h2⟩, ?_⟩
    rw [hlg']
    rcases hlg J i' with h | h
    · rw [h.2] at ho'; exact absurd (huni w' ho') hne
    · exact h
  · intro w2 e2
    rw [show w2 = w from e2]
    simp only [WInv, ho]
    refine ⟨by rw [hs']; exact ha, by rw [hs']; exact hwq, by rw [hs']; exact hsl, ⟨t', r, φ, hp, hout⟩, hst⟩
  · intro t1 r1 φ1 h1
    rw [hp] at h1
    simp only [Option.some.injEq, Prod.mk.injEq] at h1
    obtain ⟨rfl, rfl, rfl⟩ := h1
    have hne : ∀ i', i' ≠ i → ns s'.log J i' = ns s.log J i' ∧ nf s'.log J i' = nf s.log J i' := by
      intro i' hi'
      rw [hlg']
      rcases hlg J i' with h | h
      · exact absurd h.2 hi'
      · exact h
    refine ⟨by rw [hs']; exact hJ.job, hJ.ok, hJ.ne, hJ.info, ?_, ?_, ?_⟩
    · obtain ⟨fr, h1, h2⟩ := hJ.frm
      by_cases ht : t' = .wk w
      · rw [ht, hs] at h1; exact absurd h2 (hf J fr h1)
      · refine ⟨fr, ?_, h2⟩
        rw [hs']
        show fr ∈ Function.update s.stack (.wk w) st' t'
        rw [Function.update_of_ne ht]; exact h1
    · intro i' hi'
      obtain ⟨w', h1, h2⟩ := hJ.out i' hi'
      exact ⟨w', by rw [hs']; exact h1, h2⟩
    · have h0 := hJ.cnt
      cases φ with
      | dist k =>
        simp only [Cnt, Phase.out] at h0 hout ⊢
        intro i' hi'
        rw [(hne i' (by omega)).1, (hne i' (by omega)).2]; exact h0 i' hi'
      | self =>
        simp only [Cnt, Phase.out] at h0 hout ⊢
        refine ⟨fun i' hi' => ?_, fun i' hi' => ?_⟩
        · rw [(hne i' (by omega)).1, (hne i' (by omega)).2]; exact h0.1 i' hi'
        · rw [(hne i' (by omega)).1, (hne i' (by omega)).2]; exact h0.2 i' hi'
      | coll k =>
        simp only [Cnt, Phase.out] at h0 hout ⊢
        refine ⟨fun i' hi' hi2 => ?_, fun i' hi' => ?_⟩
        · rw [(hne i' (by omega)).1, (hne i' (by omega)).2]; exact h0.1 i' hi' hi2
        · rw [(hne i' (by omega)).1, (hne i' (by omega)).2]; exact h0.2 i' hi'
  · intro h; rw [hp] at h; cases h

/-- the worker takes its token -/
theorem inv_wait (I : Inv s g) {w J i : ℕ} (hs : s.stack (.wk w) = [.wait]) (ho : g.own w = .asg J i) (hr : s.ready w ≠ 0) :
    Inv { s.put (.wk w) [.fetch] with ready := Function.update s.ready w (s.ready w - 1) } g := by
  obtain ⟨t', r, φ, hp⟩ := I.asg_ph ho
  obtain ⟨hout, hwq, hsl, ha, hst0⟩ := I.asg_phase ho hp
  have h1 : s.ready w = 1 ∧ s.done w = 0 ∧ ns s.log J i = 0 ∧ nf s.log J i = 0 := by
    rcases hst0 with h | h | h | h | h
    · exact ⟨h.1, h.2.1, h.2.2.2⟩
    all_goals exact absurd h.1 hr
  refine inv_stage I (J := J) (i := i) (st' := [.fetch]) (rd := s.ready w - 1) (dn := s.done w) (lg := s.log) hs (by simp [crit]) (by simp [Holds]) ?_ ho ?_ (fun _ _ => .inr ⟨rfl, rfl⟩) ?_
    (.worker w rfl (by simp)) (I.log.same rfl (fun _ h => h) rfl)
  · intro J fr hfr ⟨r, φ, h⟩
    obtain rfl := List.mem_singleton.1 hfr; simp [jphase] at h
  · rw [Function.update_eq_self w s.done]; rfl
  · refine .inr (.inl ⟨?_, h1.2.1, ?_, h1.2.2⟩)
    · show Function.update s.ready w _ w = 0
      rw [Function.update_self, h1.1]
    · exact Function.update_self ..

/-- the worker starts its block -/
theorem inv_fetch (I : Inv s g) {w J i : ℕ} {r : Job} {d : SpawnData} (hs : s.stack (.wk w) = [.fetch]) (ho : g.own w = .asg J i)
    (hj : s.jobs J = some r) (hd : r.blocks[i]? = some d) :
    Inv { s.put (.wk w) [.run J i (r.body d), .signal] with log := .start J i d :: s.log } g := by
  obtain ⟨t', r', φ, hp⟩ := I.asg_ph ho
  have hJ := I.job J t' r' φ hp
  obtain rfl : r' = r := by have := hJ.job; rw [hj] at this; exact (Option.some.inj this).symm
  obtain ⟨hout, hwq, hsl, ha, hst0⟩ := I.asg_phase ho hp
  have h1 : s.ready w = 0 ∧ s.done w = 0 ∧ ns s.log J i = 0 ∧ nf s.log J i = 0 := by
    rcases hst0 with h | h | h | h | h
    · rw [hs] at h; simp at h
    · exact ⟨h.1, h.2.1, h.2.2.2⟩
    · rw [hs] at h; simp at h
    · rw [hs] at h; simp at h
    · rw [hs] at h; simp at h
  refine inv_stage I (J := J) (i := i) (st' := [.run J i (r'.body d), .signal]) (rd := s.ready w) (dn := s.done w) (lg := .start J i d :: s.log) hs (by simp [crit]) (by simp [Holds]) ?_ ho ?_
    (fun J' i' => start_cnt s.log J i d J' i') ?_
    (.run (.worker w rfl ho) (hJ.ok d (List.mem_of_getElem? hd))) (I.log.start (J := J) (i := i) (d := d) rfl ?_ rfl hJ.info hd)
  · intro J fr hfr ⟨r, φ, h⟩
    obtain rfl := List.mem_singleton.1 hfr; simp [jphase] at h
  · rw [Function.update_eq_self w s.done, Function.update_eq_self w s.ready]; rfl
  · refine .inr (.inr (.inl ⟨h1.1, h1.2.1, ?_, ?_⟩))
    · show 2 ≤ (Function.update s.stack (.wk w) _ (.wk w)).length
      rw [Function.update_self]; simp
    · show ns (.start J i d :: s.log) J i = 1 ∧ nf (.start J i d :: s.log) J i = 0
      rw [ns_cons, nf_cons, h1.2.2.1, h1.2.2.2]; simp [isStart]
  · intro J' h
    exact ⟨h, by rintro rfl; rw [hp] at h; cases h⟩

/-- the worker's block ends -/
theorem inv_doneWorker (I : Inv s g) {w J i : ℕ} {p : Prog} (hs : s.stack (.wk w) = [.run J i p, .signal]) (ho : g.own w = .asg J i) :
    Inv { s.put (.wk w) [.signal] with log := .finish J i :: s.log } g := by
  obtain ⟨t', r, φ, hp⟩ := I.asg_ph ho
  have hJ := I.job J t' r φ hp
  obtain ⟨hout, hwq, hsl, ha, hst0⟩ := I.asg_phase ho hp
  have h1 : s.ready w = 0 ∧ s.done w = 0 ∧ ns s.log J i = 1 ∧ nf s.log J i = 0 := by
    rcases hst0 with h | h | h | h | h
    · rw [hs] at h; simp at h
    · rw [hs] at h; simp at h
    · exact ⟨h.1, h.2.1, h.2.2.2⟩
    · rw [hs] at h; simp at h
    · rw [hs] at h; simp at h
  refine inv_stage I (J := J) (i := i) (st' := [.signal]) (rd := s.ready w) (dn := s.done w) (lg := .finish J i :: s.log) hs (by simp [crit]) (by simp [Holds]) ?_ ho ?_
    (fun J' i' => finish_cnt s.log J i J' i') ?_
    (.worker w rfl (by simp)) (I.log.finish (J := J) (i := i) rfl ?_ rfl hJ.info h1.2.2.1)
  · intro J fr hfr ⟨r, φ, h⟩
    simp only [List.mem_cons, List.not_mem_nil, or_false] at hfr
    rcases hfr with rfl | rfl <;> simp [jphase] at h
  · rw [Function.update_eq_self w s.done, Function.update_eq_self w s.ready]; rfl
  · refine .inr (.inr (.inr (.inl ⟨h1.1, h1.2.1, ?_, ?_⟩)))
    · exact Function.update_self ..
    · show ns (.finish J i :: s.log) J i = 1 ∧ nf (.finish J i :: s.log) J i = 1
      rw [ns_cons, nf_cons, h1.2.2.1, h1.2.2.2]; simp [isStart]
  · intro J' h
    exact ⟨h, by rintro rfl; rw [hp] at h; cases h⟩

/-- the worker signals completion -/
theorem inv_signal (I : Inv s g) {w J i : ℕ} (hs : s.stack (.wk w) = [.signal]) (ho : g.own w = .asg J i) :
    Inv { s.put (.wk w) [.wait] with done := Function.update s.done w (s.done w + 1) } g := by
  obtain ⟨t', r, φ, hp⟩ := I.asg_ph ho
  obtain ⟨hout, hwq, hsl, ha, hst0⟩ := I.asg_phase ho hp
  have h1 : s.ready w = 0 ∧ s.done w = 0 ∧ ns s.log J i = 1 ∧ nf s.log J i = 1 := by
    rcases hst0 with h | h | h | h | h
    · rw [hs] at h; simp at h
    · rw [hs] at h; simp at h
    · rw [hs] at h; simp at h
    · exact ⟨h.1, h.2.1, h.2.2.2⟩
    · rw [hs] at h; simp at h
  refine inv_stage I (J := J) (i := i) (st' := [.wait]) (rd := s.ready w) (dn := s.done w + 1) (lg := s.log) hs (by simp [crit]) (by simp [Holds]) ?_ ho ?_ (fun _ _ => .inr ⟨rfl, rfl⟩) ?_
    (.worker w rfl (by simp)) (I.log.same rfl (fun _ h => h) rfl)
  · intro J fr hfr ⟨r, φ, h⟩
    obtain rfl := List.mem_singleton.1 hfr; simp [jphase] at h
  · rw [Function.update_eq_self w s.ready]; rfl
  · refine .inr (.inr (.inr (.inr ⟨h1.1, ?_, ?_, h1.2.2⟩)))
    · show Function.update s.done w _ w = 1
      rw [Function.update_self, h1.2.1]
    · exact Function.update_self ..

end FFTW.Pool
