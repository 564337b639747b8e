import Verif.Proofs.Pool2
/-!
# Preservation of the thread-pool invariant: steps that change the phase of a call
-/

namespace FFTW.Pool
open FFTW.Spawn

variable {s s' : Sys} {g g' : Ghost} {t : Tid}

/-- the fields a step of ordinary work leaves alone -/
structure Quiet (s s' : Sys) : Prop where
  lock : s'.lock = s.lock
  head : s'.head = s.head
  cdr : s'.cdr = s.cdr
  wq : s'.wq = s.wq
  slot : s'.slot = s.slot
  alive : s'.alive = s.alive
  term : s'.term = s.term
  cleaning : s'.cleaning = s.cleaning
  nm : s'.nm = s.nm

/-- Steps that concern call `J` and the workers in `P`. -/
theorem inv_ph (I : Inv s g) (Q : Quiet s s') {f : Frame} {st st' : List Frame} (hs : s.stack t = f :: st) (hc : s.cleaning = false) (hcr : ¬ crit f)
    (P : ℕ → Prop) (J : ℕ) (hnm : ∀ m, t = .master m → st' ≠ [])
    (hs' : s'.stack = Function.update s.stack t st')
    (hph : ∀ J', J' ≠ J → g'.ph J' = g.ph J') (hjb : ∀ J', J' ≠ J → s'.jobs J' = s.jobs J') (hinf : ∀ J', J' ≠ J → g'.info J' = g.info J')
    (hphJ : g'.ph J = g.ph J ∨ ∀ t' r φ, g.ph J = some (t', r, φ) → t' = t)
    (hnx : s.nextJob ≤ s'.nextJob) (hnJ : J < s'.nextJob) (hl : g'.l = g.l)
    (hown : ∀ w, ¬ P w → g'.own w = g.own w ∧ s'.ready w = s.ready w ∧ s'.done w = s.done w)
    (hP1 : ∀ w, P w → g'.own w = g.own w ∨ (s.stack (.wk w)).length ≤ 1)
    (hP2 : ∀ w, P w → ∀ t', g.own w = .held t' → t' = t) (hP3 : ∀ w, P w → g.own w ≠ .queue ∧ g'.own w ≠ .queue)
    (hP4 : ∀ w, P w → ∀ J' i, J' ≠ J → g.own w = .asg J' i → g'.own w = .asg J' i)
    (hhold : ∀ w, g.own w = .held t → P w)
    (hwk : ∀ w, t = .wk w → ¬ P w → 2 ≤ (f :: st).length ∧ 2 ≤ st'.length)
    (hlogJ : ∀ J', J' ≠ J → ∀ i, ns s'.log J' i = ns s.log J' i ∧ nf s'.log J' i = nf s.log J' i)
    (hfr : ∀ J', J' ≠ J → ∀ fr ∈ f :: st, ofJob J' fr → fr ∈ st')
    (hasg : ∀ w i, ¬ P w → g.own w = .asg J i →
      (∀ t r φ, g.ph J = some (t, r, φ) → φ.out r.blocks.length i → ∃ t r φ, g'.ph J = some (t, r, φ) ∧ φ.out r.blocks.length i) ∧
      ns s'.log J i = ns s.log J i ∧ nf s'.log J i = nf s.log J i)
    (hsok : SOK s' g' t st') (hW : ∀ w, P w → WInv s' g' w) (hJ1 : ∀ t r φ, g'.ph J = some (t, r, φ) → JInv s' g' J t r φ)
    (hJ2 : g'.ph J = none → s'.jobs J = none) (hL : LInv s' g') : Inv s' g' := by
  have hst : ∀ t', t' ≠ t → s'.stack t' = s.stack t' := fun t' h => by rw [hs']; exact Function.update_of_ne h _ _
  have hst' : s'.stack t = st' := by rw [hs']; exact Function.update_self ..
  have hnd := I.ndying hc
  have hc' : s'.cleaning = false := by rw [Q.cleaning, hc]
  constructor
  · intro t'
    by_cases ht : t' = t
    · subst ht; rw [hst']; exact hsok
    · rw [hst t' ht]
      refine (I.stk t').congr ?_ ?_ ?_ ?_ ?_ ?_
      · intro J' r φ h
        by_cases hJ : J' = J
        · subst hJ
          rcases hphJ with h1 | h1
          · exact h1
          · exact absurd (h1 t' r φ h) ht
        · exact hph J' hJ
      · intro hlen w J' i htw h
        by_cases hPw : P w
        · rcases hP1 w hPw with h1 | h1
          · exact h1
          · rw [htw] at hlen; omega
        · exact (hown w hPw).1
      · intro w h
        have hPw : ¬ P w := fun hp => ht (hP2 w hp t' h)
        exact ⟨by rw [(hown w hPw).1, h], by rw [Q.slot], by rw [Q.cdr]⟩
      · intro J' r φ h; rw [Q.wq]
      · intro h; exact ⟨by rw [Q.lock, h], Q.head⟩
      · intro f h; exact absurd h (I.kx hc)
  · intro w
    by_cases hPw : P w
    · exact hW w hPw
    · refine (I.wrk w).congr (hown w hPw).1 (by rw [Q.alive]) (hown w hPw).2.1 (hown w hPw).2.2 (by rw [Q.slot]) ?_ ?_ Q.wq ?_ (hnd w)
      · by_cases ht : t = .wk w
        · right
          have := hwk w ht hPw
          rw [← ht, hs, hst']; exact this
        · left; exact hst _ (fun h => ht h.symm)
      · intro t' h
        apply hst
        rintro rfl
        exact hPw (hhold w h)
      · intro J' i h
        by_cases hJ : J' = J
        · subst hJ; exact hasg w i hPw h
        · refine ⟨fun t r φ h1 h2 => ⟨t, r, φ, by rw [hph J' hJ, h1], h2⟩, hlogJ J' hJ i⟩
  · intro J' t' r φ h
    by_cases hJ : J' = J
    · subst hJ; exact hJ1 t' r φ h
    · rw [hph J' hJ] at h
      refine (I.job J' t' r φ h).congr (hjb J' hJ) (hinf J' hJ) ?_ Q.wq ?_ (hlogJ J' hJ)
      · intro fr h1 h2
        by_cases ht : t' = t
        · subst ht
          rw [hs] at h1
          exact ⟨fr, by rw [hst']; exact hfr J' hJ fr h1 h2, h2⟩
        · exact ⟨fr, by rw [hst t' ht]; exact h1, h2⟩
      · intro w i h
        by_cases hPw : P w
        · exact hP4 w hPw J' i hJ h
        · rw [(hown w hPw).1, h]
  · intro J' h
    by_cases hJ : J' = J
    · subst hJ; exact hJ2 h
    · rw [hjb J' hJ]; rw [hph J' hJ] at h; exact I.noj J' h
  · rw [Q.cdr, Q.head, hl]; exact I.lst
  · rw [hl]; exact I.nod
  · intro w
    rw [hl, I.mem]
    by_cases hPw : P w
    · simp [hP3 w hPw]
    · rw [(hown w hPw).1]
  · intro t' h
    rw [Q.lock] at h
    obtain ⟨f1, st1, h1, h2⟩ := I.lck t' h
    refine ⟨f1, st1, ?_, h2⟩
    rw [hst, h1]
    rintro rfl
    rw [hs] at h1
    injection h1 with e1 e2
    subst e1
    exact hcr h2
  · intro h; rw [hc'] at h; cases h
  · intro _; rw [Q.term]; exact I.trm hc
  · intro J' h
    have hJ : J' ≠ J := by omega
    rw [hph J' hJ, hinf J' hJ]
    exact I.nxt J' (by omega)
  · obtain ⟨B, hB⟩ := I.fin; exact ⟨B, fun w hw => by rw [Q.alive]; exact hB w hw⟩
  · intro m hm
    rw [Q.nm] at hm
    rw [hst, I.mst m hm]
    rintro rfl
    have := I.mst m hm
    rw [hs] at this; cases this
  · intro m hm
    rw [Q.nm] at hm
    by_cases ht : Tid.master m = t
    · rw [ht, hst']; exact hnm m ht.symm
    · rw [hst _ ht]; exact I.mst' m hm
  · exact hL

theorem Inv.no_held (I : Inv s g) {f : Frame} {st : List Frame} (hs : s.stack t = f :: st) (hf : ∀ w, ¬ Holds s f w) (w : ℕ) : g.own w ≠ .held t := by
  intro h
  have hw := I.wrk w
  simp only [WInv, h] at hw
  obtain ⟨_, _, _, _, f1, st1, h1, h2⟩ := hw
  rw [hs] at h1
  injection h1 with e1 e2
  subst e1
  exact hf w h2

theorem Inv.lt (I : Inv s g) {J : ℕ} {x : Tid × Job × Phase} (h : g.ph J = some x) : J < s.nextJob := by
  by_contra hn
  have := (I.nxt J (by omega)).1
  rw [h] at this; cases this

mutual
/-- frames of a call are only found in stacks of younger code -/
theorem Ret.ofJob_lt {J J' : ℕ} {st : List Frame} (h : Ret g t J st) {f : Frame} (hf : f ∈ st) (ho : ofJob J' f) : J' < J := by
  cases h with
  | app m hm hv =>
    obtain ⟨r, φ, h1⟩ := ho
    obtain rfl := List.mem_singleton.1 hf
    simp [jphase] at h1
  | run hl hi hr =>
    rcases List.mem_cons.1 hf with rfl | hf
    · obtain ⟨r, φ, h1⟩ := ho; simp [jphase] at h1
    · have := hr.ofJob_le hf ho; omega
theorem RunOK.ofJob_le {J J' i : ℕ} {st : List Frame} (h : RunOK g t J i st) {f : Frame} (hf : f ∈ st) (ho : ofJob J' f) : J' ≤ J := by
  cases h with
  | worker w hw hx =>
    obtain ⟨r, φ, h1⟩ := ho
    obtain rfl := List.mem_singleton.1 hf
    simp [jphase] at h1
  | self r hp hi hr =>
    rcases List.mem_cons.1 hf with rfl | hf
    · obtain ⟨r, φ, h1⟩ := ho
      simp only [jphase, Option.some.injEq, Prod.mk.injEq] at h1
      omega
    · have := hr.ofJob_lt hf ho; omega
end

/-- the master starts the last block itself -/
theorem inv_distLast (I : Inv s g) {st : List Frame} {J : ℕ} {r : Job} {i : ℕ} (hs : s.stack t = .dist J r i :: st) (hi : i + 1 = r.blocks.length)
    {d : SpawnData} (hd : r.blocks[i]? = some d) :
    ∃ g', Inv { s.put t (.run J i (r.body d) :: .coll J r 0 :: st) with log := .start J i d :: s.log } g' := by
  obtain ⟨hp, hx, hr⟩ := I.top hs (J := J) (r := r) (φ := .dist i) rfl
  have hc := I.active hp
  have hJ := I.job J t r _ hp
  set s' : Sys := { s.put t (.run J i (r.body d) :: .coll J r 0 :: st) with log := .start J i d :: s.log }
  refine ⟨{ g with ph := Function.update g.ph J (some (t, r, .self)) }, ?_⟩
  set g' : Ghost := { g with ph := Function.update g.ph J (some (t, r, .self)) }
  have hpJ : g'.ph J = some (t, r, .self) := Function.update_self ..
  have hpn : ∀ J', J' ≠ J → g'.ph J' = g.ph J' := fun J' h => Function.update_of_ne h _ _
  have hcnt : ∀ J' i', (J' = J ∧ i' = i) ∨ (ns s'.log J' i' = ns s.log J' i' ∧ nf s'.log J' i' = nf s.log J' i') := by
    intro J' i'
    by_cases h : J' = J ∧ i' = i
    · exact .inl h
    · right
      show ns (.start J i d :: s.log) J' i' = _ ∧ nf (.start J i d :: s.log) J' i' = _
      rw [ns_cons, nf_cons]
      simp only [isStart, Bool.and_eq_true, beq_iff_eq, reduceCtorEq, if_false, Nat.add_zero, and_true]
      rw [if_neg (by rintro ⟨rfl, rfl⟩; exact h ⟨rfl, rfl⟩)]; rfl
  have h0 := hJ.cnt
  simp only [Cnt] at h0
  refine inv_ph I (s' := s') (g' := g') ⟨rfl, rfl, rfl, rfl, rfl, rfl, rfl, rfl, rfl⟩ hs hc (by simp [crit]) (fun _ => False) J (by simp) rfl hpn (fun _ _ => rfl) (fun _ _ => rfl)
    (.inr ?_) (Nat.le_refl _) (I.lt hp) rfl (fun w _ => ⟨rfl, rfl, rfl⟩) (fun _ h => h.elim) (fun _ h => h.elim) (fun _ h => h.elim) (fun _ h => h.elim) ?_ ?_ ?_ ?_ ?_ ?_
    (fun _ h => h.elim) ?_ ?_ ?_
  · intro t' r' φ' h
    rw [hp] at h; simp only [Option.some.injEq, Prod.mk.injEq] at h; exact h.1.symm
  · intro w h; exact I.no_held hs (by simp [Holds]) w h
  · intro w _ _; have := hr.ne_nil; cases st <;> simp_all
  · intro J' hJ' i'
    rcases hcnt J' i' with h | h
    · exact absurd h.1 hJ'
    · exact h
  · intro J' hJ' fr hfr ho
    rcases List.mem_cons.1 hfr with rfl | hfr
    · obtain ⟨r', φ', h⟩ := ho
      simp only [jphase, Option.some.injEq, Prod.mk.injEq] at h
      exact absurd h.1.symm hJ'
    · simp [hfr]
  · intro w i' _ ho
    have hw := I.wrk w
    simp only [WInv, ho] at hw
    obtain ⟨_, _, _, ⟨t1, r1, φ1, h1, h2⟩, _⟩ := hw
    rw [hp] at h1
    simp only [Option.some.injEq, Prod.mk.injEq] at h1
    obtain ⟨rfl, rfl, rfl⟩ := h1
    simp only [Phase.out] at h2
    refine ⟨fun t2 r2 φ2 _ _ => ⟨t, r, .self, hpJ, by simp only [Phase.out]; omega⟩, ?_⟩
    rcases hcnt J i' with h | h
    · omega
    · exact h
  · refine .run (.self r hpJ hi (hr.congr (fun J' hJ' r φ h => hpn J' (by omega)) (fun _ _ _ _ _ => rfl))) ?_
    exact hJ.ok d (List.mem_of_getElem? hd)
  · intro t1 r1 φ1 h1
    rw [hpJ] at h1
    simp only [Option.some.injEq, Prod.mk.injEq] at h1
    obtain ⟨rfl, rfl, rfl⟩ := h1
    refine ⟨hJ.job, hJ.ok, hJ.ne, hJ.info, ?_, ?_, ?_⟩
    · exact ⟨.coll J r 0, by simp [s', Sys.put], r, _, rfl⟩
    · intro i' h; exact hJ.out i' (by simp only [Phase.out] at h ⊢; omega)
    · simp only [Cnt]
      refine ⟨fun i' hi' => ?_, fun i' hi' => ?_⟩
      · obtain rfl : i' = i := by omega
        show ns (.start J i' d :: s.log) J i' = _ ∧ nf (.start J i' d :: s.log) J i' = _
        rw [ns_cons, nf_cons, (h0 i' (Nat.le_refl _)).1, (h0 i' (Nat.le_refl _)).2]
        simp [isStart]
      · rcases hcnt J i' with h | h
        · omega
        · rw [h.1, h.2]; exact h0 i' (by omega)
  · intro h; rw [hpJ] at h; cases h
  · refine I.log.start (J := J) (i := i) (d := d) rfl ?_ rfl hJ.info hd
    intro J' h
    have : J' ≠ J := by rintro rfl; rw [hpJ] at h; cases h
    exact ⟨by rw [← hpn J' this]; exact h, this⟩


/-- the new value of the ghost phase table -/
theorem Inv.asg_phase (I : Inv s g) {w J i : ℕ} (ho : g.own w = .asg J i) {t' : Tid} {r : Job} {φ : Phase} (hp : g.ph J = some (t', r, φ)) :
    φ.out r.blocks.length i ∧ s.wq J i = some w ∧ s.slot w = some (.work J i) ∧ s.alive w = true ∧ Stage s w J i := by
  have hw := I.wrk w
  simp only [WInv, ho] at hw
  obtain ⟨ha, hq, hs, ⟨t1, r1, φ1, h1, h2⟩, h3⟩ := hw
  rw [hp] at h1
  simp only [Option.some.injEq, Prod.mk.injEq] at h1
  obtain ⟨rfl, rfl, rfl⟩ := h1
  exact ⟨h2, hq, hs, ha, h3⟩

theorem Inv.asg_ph (I : Inv s g) {w J i : ℕ} (ho : g.own w = .asg J i) : ∃ t' r φ, g.ph J = some (t', r, φ) := by
  have hw := I.wrk w
  simp only [WInv, ho] at hw
  obtain ⟨_, _, _, ⟨t1, r1, φ1, h1, h2⟩, h3⟩ := hw
  exact ⟨t1, r1, φ1, h1⟩

/-- the master hands block `i` to worker `w` -/
theorem inv_upReady (I : Inv s g) {st : List Frame} {J : ℕ} {r : Job} {i w : ℕ} (hs : s.stack t = .upReady J r i :: st) (hw : s.wq J i = some w) :
    ∃ g', Inv { s.put t (.dist J r (i + 1) :: st) with ready := Function.update s.ready w (s.ready w + 1) } g' := by
  obtain ⟨hp, hx, hr⟩ := I.top hs (J := J) (r := r) (φ := .dist i) rfl
  have hc := I.active hp
  have hJ := I.job J t r _ hp
  simp only [FX, hw, Option.some.injEq] at hx
  obtain ⟨hi, w', rfl, how, hslot⟩ := hx
  have hww := I.wrk w
  simp only [WInv, how] at hww
  obtain ⟨ha, hre, hdn, hstk, -⟩ := hww
  have htw : t ≠ .wk w := by
    rintro rfl; rw [hs] at hstk; injection hstk with e; cases e
  set s' : Sys := { s.put t (.dist J r (i + 1) :: st) with ready := Function.update s.ready w (s.ready w + 1) }
  refine ⟨{ g with ph := Function.update g.ph J (some (t, r, .dist (i + 1))), own := Function.update g.own w (.asg J i) }, ?_⟩
  set g' : Ghost := { g with ph := Function.update g.ph J (some (t, r, .dist (i + 1))), own := Function.update g.own w (.asg J i) }
  have hpJ : g'.ph J = some (t, r, .dist (i + 1)) := Function.update_self ..
  have hpn : ∀ J', J' ≠ J → g'.ph J' = g.ph J' := fun J' h => Function.update_of_ne h _ _
  have how' : g'.own w = .asg J i := Function.update_self ..
  have hon : ∀ w', w' ≠ w → g'.own w' = g.own w' := fun J' h => Function.update_of_ne h _ _
  have h0 := hJ.cnt
  simp only [Cnt] at h0
  refine inv_ph I (s' := s') (g' := g') ⟨rfl, rfl, rfl, rfl, rfl, rfl, rfl, rfl, rfl⟩ hs hc (by simp [crit]) (fun w' => w' = w) J (by simp) rfl hpn (fun _ _ => rfl) (fun _ _ => rfl)
    (.inr ?_) (Nat.le_refl _) (I.lt hp) rfl ?_ ?_ ?_ ?_ ?_ ?_ ?_ (fun _ _ _ => ⟨rfl, rfl⟩) ?_ ?_ ?_ ?_ ?_ ?_ ?_
  · intro t' r' φ' h
    rw [hp] at h; simp only [Option.some.injEq, Prod.mk.injEq] at h; exact h.1.symm
  · intro w' h; exact ⟨hon w' h, Function.update_of_ne h _ _, rfl⟩
  · rintro _ rfl; right; rw [hstk]; simp
  · rintro _ rfl t' h; rw [how] at h; injection h with h; exact h.symm
  · rintro _ rfl; rw [how, how']; simp
  · rintro _ rfl J' i' _ h; rw [how] at h; cases h
  · intro w' h
    have hw' := I.wrk w'
    simp only [WInv, h] at hw'
    obtain ⟨_, _, _, _, f1, st1, h1, h2⟩ := hw'
    rw [hs] at h1
    injection h1 with e1 e2
    subst e1
    simp only [Holds, hw, Option.some.injEq] at h2
    exact h2.symm
  · intro w' _ _; have := hr.ne_nil; cases st <;> simp_all
  · intro J' hJ' fr hfr ho
    rcases List.mem_cons.1 hfr with rfl | hfr
    · obtain ⟨r', φ', h⟩ := ho
      simp only [jphase, Option.some.injEq, Prod.mk.injEq] at h
      exact absurd h.1.symm hJ'
    · simp [hfr]
  · intro w' i' hne ho
    refine ⟨fun t2 r2 φ2 h _ => ⟨t, r, _, hpJ, ?_⟩, rfl, rfl⟩
    have := (I.asg_phase ho hp).1
    simp only [Phase.out] at this ⊢; omega
  · exact .job (J := J) (r := r) (φ := .dist (i + 1)) rfl hpJ (by simp only [FX]; omega)
      (hr.congr (fun J' hJ' r φ h => hpn J' (by omega)) (fun w' J' i' e h => hon w' (by rintro rfl; exact htw e)))
  · intro w2 e2
    rw [show w2 = w from e2]
    simp only [WInv, how']
    refine ⟨ha, hw, hslot, ⟨t, r, _, hpJ, by simp [Phase.out]⟩, .inl ⟨?_, hdn, ?_, h0 i (Nat.le_refl _)⟩⟩
    · show Function.update s.ready w (s.ready w + 1) w = 1
      rw [Function.update_self, hre]
    · show Function.update s.stack t _ (.wk w) = _
      rw [Function.update_of_ne htw.symm, hstk]
  · intro t1 r1 φ1 h1
    rw [hpJ] at h1
    simp only [Option.some.injEq, Prod.mk.injEq] at h1
    obtain ⟨rfl, rfl, rfl⟩ := h1
    refine ⟨hJ.job, hJ.ok, hJ.ne, hJ.info, ?_, ?_, ?_⟩
    · exact ⟨.dist J r (i + 1), by simp [s', Sys.put], r, _, rfl⟩
    · intro i' h
      simp only [Phase.out] at h
      by_cases hii : i' = i
      · subst hii; exact ⟨w, hw, how'⟩
      · obtain ⟨w', h1, h2⟩ := hJ.out i' (by simp only [Phase.out]; omega)
        exact ⟨w', h1, by rw [hon w' (by rintro rfl; rw [how] at h2; cases h2)]; exact h2⟩
    · simp only [Cnt]
      intro i' hi'; exact h0 i' (by omega)
  · intro h; rw [hpJ] at h; cases h
  · refine I.log.same rfl ?_ rfl
    intro J' h
    have : J' ≠ J := by rintro rfl; rw [hpJ] at h; cases h
    rw [← hpn J' this]; exact h

/-- the master collects block `i` from its worker -/
theorem inv_down (I : Inv s g) {st : List Frame} {J : ℕ} {r : Job} {i w : ℕ} (hs : s.stack t = .coll J r i :: st) (hi : i + 1 ≠ r.blocks.length)
    (hw : s.wq J i = some w) (hd0 : s.done w ≠ 0) :
    ∃ g', Inv { s.put t (.enqLock J r i w :: st) with done := Function.update s.done w (s.done w - 1) } g' := by
  obtain ⟨hp, hx, hr⟩ := I.top hs (J := J) (r := r) (φ := .coll i) rfl
  have hc := I.active hp
  have hJ := I.job J t r _ hp
  simp only [FX] at hx
  obtain ⟨w', hw', how⟩ := hJ.out i (by simp only [Phase.out]; omega)
  rw [hw] at hw'
  obtain rfl := Option.some.inj hw'
  obtain ⟨-, -, -, ha, hstage⟩ := I.asg_phase how hp
  obtain ⟨hre, hdn, hstk, hn1, hn2⟩ : s.ready w = 0 ∧ s.done w = 1 ∧ s.stack (.wk w) = [.wait] ∧ ns s.log J i = 1 ∧ nf s.log J i = 1 := by
    rcases hstage with h | h | h | h | h
    · exact absurd h.2.1 hd0
    · exact absurd h.2.1 hd0
    · exact absurd h.2.1 hd0
    · exact absurd h.2.1 hd0
    · exact h
  have htw : t ≠ .wk w := by
    rintro rfl; rw [hs] at hstk; injection hstk with e; cases e
  set s' : Sys := { s.put t (.enqLock J r i w :: st) with done := Function.update s.done w (s.done w - 1) }
  refine ⟨{ g with ph := Function.update g.ph J (some (t, r, .coll (i + 1))), own := Function.update g.own w (.held t) }, ?_⟩
  set g' : Ghost := { g with ph := Function.update g.ph J (some (t, r, .coll (i + 1))), own := Function.update g.own w (.held t) }
  have hpJ : g'.ph J = some (t, r, .coll (i + 1)) := Function.update_self ..
  have hpn : ∀ J', J' ≠ J → g'.ph J' = g.ph J' := fun J' h => Function.update_of_ne h _ _
  have how' : g'.own w = .held t := Function.update_self ..
  have hon : ∀ w', w' ≠ w → g'.own w' = g.own w' := fun J' h => Function.update_of_ne h _ _
  have h0 := hJ.cnt
  simp only [Cnt] at h0
  have huni : ∀ w' , g.own w' = .asg J i → w' = w := fun w' h => by
    have := (I.asg_phase h hp).2.1
    rw [hw] at this; exact (Option.some.inj this).symm
  refine inv_ph I (s' := s') (g' := g') ⟨rfl, rfl, rfl, rfl, rfl, rfl, rfl, rfl, rfl⟩ hs hc (by simp [crit]) (fun w' => w' = w) J (by simp) rfl hpn (fun _ _ => rfl) (fun _ _ => rfl)
    (.inr ?_) (Nat.le_refl _) (I.lt hp) rfl ?_ ?_ ?_ ?_ ?_ ?_ ?_ (fun _ _ _ => ⟨rfl, rfl⟩) ?_ ?_ ?_ ?_ ?_ ?_ ?_
  · intro t' r' φ' h
    rw [hp] at h; simp only [Option.some.injEq, Prod.mk.injEq] at h; exact h.1.symm
  · intro w' h; exact ⟨hon w' h, rfl, Function.update_of_ne h _ _⟩
  · rintro _ rfl; right; rw [hstk]; simp
  · rintro _ rfl t' h; rw [how] at h; cases h
  · rintro _ rfl; rw [how, how']; simp
  · rintro _ rfl J' i' hJ' h; rw [how] at h; injection h with h; exact absurd h.symm hJ'
  · intro w' h; exact absurd h (I.no_held hs (by simp [Holds]) w')
  · intro w' _ _; have := hr.ne_nil; cases st <;> simp_all
  · intro J' hJ' fr hfr ho
    rcases List.mem_cons.1 hfr with rfl | hfr
    · obtain ⟨r', φ', h⟩ := ho
      simp only [jphase, Option.some.injEq, Prod.mk.injEq] at h
      exact absurd h.1.symm hJ'
    · simp [hfr]
  · intro w' i' hne ho
    refine ⟨fun t2 r2 φ2 h _ => ⟨t, r, _, hpJ, ?_⟩, rfl, rfl⟩
    have := (I.asg_phase ho hp).1
    simp only [Phase.out] at this ⊢
    have : i' ≠ i := by rintro rfl; exact hne (huni w' ho)
    omega
  · exact .job (J := J) (r := r) (φ := .coll (i + 1)) rfl hpJ (by simp only [FX]; exact ⟨by omega, how'⟩)
      (hr.congr (fun J' hJ' r φ h => hpn J' (by omega)) (fun w' J' i' e h => hon w' (by rintro rfl; exact htw e)))
  · intro w2 e2
    rw [show w2 = w from e2]
    simp only [WInv, how']
    refine ⟨ha, hre, ?_, ?_, .enqLock J r i w, st, ?_, rfl⟩
    · show Function.update s.done w (s.done w - 1) w = 0
      rw [Function.update_self, hdn]
    · show Function.update s.stack t _ (.wk w) = _
      rw [Function.update_of_ne htw.symm, hstk]
    · exact Function.update_self ..
  · intro t1 r1 φ1 h1
    rw [hpJ] at h1
    simp only [Option.some.injEq, Prod.mk.injEq] at h1
    obtain ⟨rfl, rfl, rfl⟩ := h1
    refine ⟨hJ.job, hJ.ok, hJ.ne, hJ.info, ?_, ?_, ?_⟩
    · exact ⟨.enqLock J r i w, by simp [s', Sys.put], r, _, rfl⟩
    · intro i' h
      simp only [Phase.out] at h
      obtain ⟨w', h1, h2⟩ := hJ.out i' (by simp only [Phase.out]; omega)
      exact ⟨w', h1, by rw [hon w' (by rintro rfl; rw [how] at h2; injection h2 with _ h2; omega)]; exact h2⟩
    · simp only [Cnt]
      refine ⟨fun i' hi' hi2 => ?_, h0.2⟩
      by_cases hii : i' = i
      · subst hii; exact ⟨hn1, hn2⟩
      · exact h0.1 i' (by omega) hi2
  · intro h; rw [hpJ] at h; cases h
  · refine I.log.same rfl ?_ rfl
    intro J' h
    have : J' ≠ J := by rintro rfl; rw [hpJ] at h; cases h
    rw [← hpn J' this]; exact h

/-- `spawn_loop` returns -/
theorem inv_ret (I : Inv s g) {st : List Frame} {J : ℕ} {r : Job} {i : ℕ} (hs : s.stack t = .coll J r i :: st) (hi : i + 1 = r.blocks.length) :
    ∃ g', Inv { s.put t st with jobs := Function.update s.jobs J none, log := .ret J :: s.log } g' := by
  obtain ⟨hp, hx, hr⟩ := I.top hs (J := J) (r := r) (φ := .coll i) rfl
  have hc := I.active hp
  have hJ := I.job J t r _ hp
  set s' : Sys := { s.put t st with jobs := Function.update s.jobs J none, log := .ret J :: s.log }
  refine ⟨{ g with ph := Function.update g.ph J none }, ?_⟩
  set g' : Ghost := { g with ph := Function.update g.ph J none }
  have hpJ : g'.ph J = none := Function.update_self ..
  have hpn : ∀ J', J' ≠ J → g'.ph J' = g.ph J' := fun J' h => Function.update_of_ne h _ _
  have h0 := hJ.cnt
  simp only [Cnt] at h0
  have hno : ∀ w i', g.own w ≠ .asg J i' := fun w i' h => by
    have := (I.asg_phase h hp).1
    simp only [Phase.out] at this; omega
  refine inv_ph I (s' := s') (g' := g') ⟨rfl, rfl, rfl, rfl, rfl, rfl, rfl, rfl, rfl⟩ hs hc (by simp [crit]) (fun _ => False) J (fun _ _ => hr.ne_nil) rfl hpn ?_ (fun _ _ => rfl)
    (.inr ?_) (Nat.le_refl _) (I.lt hp) rfl (fun w _ => ⟨rfl, rfl, rfl⟩) (fun _ h => h.elim) (fun _ h => h.elim) (fun _ h => h.elim) (fun _ h => h.elim) ?_ ?_
    (fun J' _ i' => ns_ret ..) ?_ ?_ ?_ (fun _ h => h.elim) ?_ ?_ ?_
  · intro J' h; exact Function.update_of_ne h _ _
  · intro t' r' φ' h
    rw [hp] at h; simp only [Option.some.injEq, Prod.mk.injEq] at h; exact h.1.symm
  · intro w h; exact I.no_held hs (by simp [Holds]) w h
  · intro w e _
    refine ⟨by have := hr.ne_nil; cases st <;> simp_all, ?_⟩
    cases hr with
    | app m hm hv => rw [e] at hm; cases hm
    | run hl hp hr => cases hr <;> simp
  · intro J' hJ' fr hfr ho
    rcases List.mem_cons.1 hfr with rfl | hfr
    · obtain ⟨r', φ', h⟩ := ho
      simp only [jphase, Option.some.injEq, Prod.mk.injEq] at h
      exact absurd h.1.symm hJ'
    · exact hfr
  · intro w i' _ ho; exact absurd ho (hno w i')
  · have h2 : Ret g' t J st := hr.congr (fun J' hJ' r φ h => hpn J' (by omega)) (fun _ _ _ _ _ => rfl)
    cases h2 with
    | app m hm hv => exact .app m hm hv
    | run hl hp2 hr2 => exact .run hr2 hp2
  · intro t1 r1 φ1 h1
    rw [hpJ] at h1; cases h1
  · intro _; exact Function.update_self ..
  · refine I.log.returns (J := J) rfl (fun J' h h' => by rw [← hpn J' h]; exact h') rfl hJ.info ?_
    intro i'
    exact ⟨fun h => h0.1 i' (by omega) h, h0.2 i'⟩

end FFTW.Pool
