import Verif.Proofs.Planner

namespace FFTW.Planner
open FFTW.Spec

theorem lookupLoop_cand {t : HTab} {s : MSig} {f : FlagsT} {h d g : ℕ} {best r : Option Slot} (hr : lookupLoop t s f h d g best = some r) :
    (∀ b, best = some b → b.live = true ∧ b.s = s ∧ subsumes b.fl b.slvndx f = true) →
      ∀ b, r = some b → b.live = true ∧ b.s = s ∧ subsumes b.fl b.slvndx f = true := by
  refine lookupLoop.partial_correctness t s f h d
    (fun _ best r => (∀ b, best = some b → b.live = true ∧ b.s = s ∧ subsumes b.fl b.slvndx f = true) →
      ∀ b, r = some b → b.live = true ∧ b.s = s ∧ subsumes b.fl b.slvndx f = true) ?_ g best r hr
  intro loop ih g best r h1 hb
  split at h1
  · simp at h1
  · rename_i l _
    split at h1
    · simp only at h1
      have hb' : ∀ b, (if betterp s f l best = true then some l else best) = some b → b.live = true ∧ b.s = s ∧ subsumes b.fl b.slvndx f = true := by
        intro b hbb
        split at hbb
        · rename_i hbet
          obtain rfl := Option.some.inj hbb
          simp only [betterp, Bool.and_eq_true, decide_eq_true_eq] at hbet
          exact ⟨hbet.1.1.1, hbet.1.1.2.symm, hbet.1.2⟩
        · exact hb b hbb
      generalize (if betterp s f l best = true then some l else best) = best2 at h1 hb'
      split at h1
      · exact ih _ _ _ h1 hb'
      · obtain rfl := Option.some.inj h1; exact hb'
    · obtain rfl := Option.some.inj h1; exact hb

theorem htabLookup_cand {t : HTab} {s : MSig} {f : FlagsT} {b : Slot} (h : htabLookup t s f = some (some b)) :
    b.live = true ∧ b.s = s ∧ subsumes b.fl b.slvndx f = true := by
  unfold htabLookup at h
  cases h1' : h1 t s with
  | none => rw [h1'] at h; simp at h
  | some x =>
    cases h2' : h2 t s with
    | none => rw [h1', h2'] at h; simp at h
    | some d =>
      rw [h1', h2'] at h
      exact lookupLoop_cand h (by simp) b rfl

theorem hlookup_cand {st : PSt} {s : MSig} {f : FlagsT} {b : Slot} (h : hlookup st s f = .ok (some b)) :
    b.live = true ∧ b.s = s ∧ subsumes b.fl b.slvndx f = true := by
  unfold hlookup at h
  cases hb : htabLookup st.blessed s f with
  | none => rw [hb] at h; simp [ofOpt, bind, Except.bind] at h
  | some r =>
    rw [hb] at h
    cases r with
    | some x =>
      simp only [ofOpt, bind, Except.bind, pure, Except.pure, Except.ok.injEq, Option.some.injEq] at h
      subst h; exact htabLookup_cand hb
    | none =>
      simp only [ofOpt, bind, Except.bind] at h
      cases hu : htabLookup st.unblessed s f with
      | none => rw [hu] at h; simp at h
      | some r =>
        rw [hu] at h
        simp only [Except.ok.injEq] at h
        subst h; exact htabLookup_cand hu

/-- an insertion changes only the tables -/
theorem hinsert_keep {st st' : PSt} {s : MSig} {f : FlagsT} {n : BitVec 12} (h : hinsert st s f n = .ok st') :
    st'.flags = st.flags ∧ st'.nthr = st.nthr ∧ st'.wstate = st.wstate ∧ st'.nplan = st.nplan := by
  unfold hinsert at h
  split at h
  · split at h
    · simp at h
    · cases ht : htabInsert st.blessed s f n with
      | none => rw [ht] at h; simp [ofOpt, bind, Except.bind] at h
      | some t =>
        rw [ht] at h
        simp only [ofOpt, bind, Except.bind, pure, Except.pure, Except.ok.injEq] at h
        subst h; exact ⟨rfl, rfl, rfl, rfl⟩
  · split at h
    · simp at h
    · cases ht : htabInsert st.unblessed s f n with
      | none => rw [ht] at h; simp [ofOpt, bind, Except.bind] at h
      | some t =>
        rw [ht] at h
        simp only [ofOpt, bind, Except.bind, pure, Except.pure, Except.ok.injEq] at h
        subst h; exact ⟨rfl, rfl, rfl, rfl⟩

theorem skipSearch_spec {m : MSig} {f : FlagsT} {b : Option (Plan × ℕ)} {st : PSt} {r : Option Plan} {st' : PSt} (h : skipSearch m f b st = .ok (r, st')) :
    r = b.map Prod.fst ∧ st'.flags = st.flags ∧ st'.nthr = st.nthr ∧ st'.wstate = st.wstate ∧ st'.nplan = st.nplan := by
  unfold skipSearch at h
  split at h
  · simp only [bind, Except.bind] at h
    split at h
    · simp at h
    · rename_i st1 hi
      simp only [pure, Except.pure, Except.ok.injEq, Prod.mk.injEq] at h
      obtain ⟨rfl, rfl⟩ := h
      exact ⟨rfl, hinsert_keep hi⟩
  · simp only [pure, Except.pure, Except.ok.injEq, Prod.mk.injEq] at h
    obtain ⟨rfl, rfl⟩ := h
    exact ⟨rfl, rfl, rfl, rfl, rfl⟩

theorem checkBogosity_spec (env : Env) (p : Problem) (st : PSt) : (checkBogosity env p st).2.flags = st.flags ∧ (checkBogosity env p st).2.nthr = st.nthr ∧
    (checkBogosity env p st).2.nplan = st.nplan ∧ ((checkBogosity env p st).2.wstate = st.wstate ∨ (checkBogosity env p st).2.wstate = .bogus) ∧
    ((checkBogosity env p st).1 = false → (checkBogosity env p st).2.wstate = st.wstate ∧ st.wstate ≠ .bogus) := by
  unfold checkBogosity
  cases env.world.bogosity st.tick p
  · simp
  · simp

/-- flags, thread count and wisdom state are as before -/
structure QKeep (st st' : PSt) : Prop where
  flags : st'.flags = st.flags
  nthr : st'.nthr = st.nthr
  wst : st'.wstate = st.wstate ∨ st'.wstate = .bogus
  nplan : Quiet st → st'.nplan = st.nplan

theorem QKeep.toKeep {st st' : PSt} (h : QKeep st st') : Keep st st' := ⟨by rw [h.flags], by rw [h.flags], by rw [h.flags], h.wst, h.nplan⟩

theorem doSearch_spec {A : Prop} {rec : Rec} (hr : RecOK A rec) {env : Env} (hA : A → ∀ d ∈ env.slvdescs, d.slv.Sound) {p : Problem} {m : MSig}
    {st : PSt} (hp : Pre st) (hb : st.wstate ≠ .bogus) {r : Option Plan} {st' : PSt} (h : doSearch rec env p m st = .ok (r, st')) :
    QKeep st st' ∧ (A → Kosher p → ∀ pl, r = some pl → Sound (ndOf st.flags.l) p pl) ∧ (Quiet st → r = none) := by
  unfold doSearch at h
  split at h
  · simp only [bogusExit, Except.ok.injEq, Prod.mk.injEq] at h
    obtain ⟨rfl, rfl⟩ := h
    exact ⟨⟨rfl, rfl, Or.inr rfl, fun _ => rfl⟩, fun _ _ _ h => by simp at h, fun _ => rfl⟩
  · rename_i hno
    have hnq : ¬ Quiet st := by rintro (h | h); exacts [hno h, hb h]
    have hf : LEQ st.flags.l st.flags.u = true := hp.resolve_right hnq
    cases hs : search rec env p st.flags st with
    | error e => rw [hs] at h; simp at h
    | ok z =>
      obtain ⟨b, f, st1⟩ := z
      rw [hs] at h
      simp only at h
      obtain ⟨s1, s2⟩ := search_spec hr hA hf hs
      obtain ⟨c1, c2, c3, c4, c5⟩ := checkBogosity_spec env p st1
      generalize checkBogosity env p st1 = C at h c1 c2 c3 c4 c5
      obtain ⟨bog, st2⟩ := C
      simp only at h c1 c2 c3 c4 c5
      have q : ∀ st3 : PSt, st3.flags = st2.flags → st3.nthr = st2.nthr → (st3.wstate = st2.wstate ∨ st3.wstate = .bogus) → QKeep st st3 := by
        intro st3 e1 e2 e3
        refine ⟨by rw [e1, c1, s1.flags], by rw [e2, c2, s1.nthr], ?_, fun h => absurd h hnq⟩
        rcases e3 with e3 | e3
        · rw [e3]
          rcases c4 with c4 | c4
          · rw [c4]; exact s1.wst
          · exact Or.inr c4
        · exact Or.inr e3
      have hsound : A → Kosher p → ∀ pl, (b.map fun x => (x.1.pl, x.2)).map Prod.fst = some pl → Sound (ndOf st.flags.l) p pl := by
        intro ha hk pl hpl
        cases b with
        | none => simp at hpl
        | some b =>
          simp only [Option.map_some, Option.some.injEq] at hpl
          subst hpl
          exact s2 ha hk b.1 b.2 rfl
      split at h
      · simp only [bogusExit, Except.ok.injEq, Prod.mk.injEq] at h
        obtain ⟨rfl, rfl⟩ := h
        exact ⟨q _ rfl rfl (Or.inr rfl), fun _ _ _ h => by simp at h, fun h => absurd h hnq⟩
      · split at h
        · split at h
          · obtain ⟨rfl, k1, k2, k3, k4⟩ := skipSearch_spec h
            exact ⟨q _ k1 k2 (Or.inl k3), hsound, fun h => absurd h hnq⟩
          · simp only [Except.ok.injEq, Prod.mk.injEq] at h
            obtain ⟨rfl, rfl⟩ := h
            exact ⟨q _ rfl rfl (Or.inl rfl), fun _ _ _ h => by simp at h, fun h => absurd h hnq⟩
        · obtain ⟨rfl, k1, k2, k3, k4⟩ := skipSearch_spec h
          exact ⟨q _ k1 k2 (Or.inl k3), hsound, fun h => absurd h hnq⟩

theorem subsumes_l {a b : FlagsT} {n : BitVec 12} (h : subsumes a n b = true) (hn : n ≠ INFEASIBLE_SLVNDX) : LEQ b.l a.l = true := by
  unfold subsumes at h
  rw [if_pos hn] at h
  simp only [Bool.and_eq_true] at h
  exact h.2

theorem useWisdom_spec {A : Prop} {rec : Rec} (hr : RecOK A rec) {env : Env} (hA : A → ∀ d ∈ env.slvdescs, d.slv.Sound) {p : Problem} {m : MSig}
    {st : PSt} (hp : Pre st) (hb : st.wstate ≠ .bogus) {sol : Slot} (hsol : subsumes sol.fl sol.slvndx st.flags = true)
    {r : Option Plan} {st' : PSt} (h : useWisdom rec env p m sol st = .ok (r, st')) :
    QKeep st st' ∧ (A → Kosher p → ∀ pl, r = some pl → Sound (ndOf st.flags.l) p pl) := by
  unfold useWisdom at h
  simp only at h
  have hds : ∀ r st', doSearch rec env p m { st with tick := st.tick + 1 } = .ok (r, st') →
      QKeep st st' ∧ (A → Kosher p → ∀ pl, r = some pl → Sound (ndOf st.flags.l) p pl) := by
    intro r st' h
    obtain ⟨h1, h2, _⟩ := doSearch_spec hr hA (st := { st with tick := st.tick + 1 }) hp hb h
    exact ⟨⟨h1.flags, h1.nthr, h1.wst, h1.nplan⟩, h2⟩
  split at h
  · exact hds _ _ h
  · split at h
    · split at h
      · exact hds _ _ h
      · simp only [Except.ok.injEq, Prod.mk.injEq] at h
        obtain ⟨rfl, rfl⟩ := h
        exact ⟨⟨rfl, rfl, Or.inl rfl, fun _ => rfl⟩, fun _ _ _ h => by simp at h⟩
    · rename_i hfeas
      split at h
      · simp at h
      · rename_i d hd
        split at h
        · simp only [bogusExit, Except.ok.injEq, Prod.mk.injEq] at h
          obtain ⟨rfl, rfl⟩ := h
          exact ⟨⟨rfl, rfl, Or.inr rfl, fun _ => rfl⟩, fun _ _ _ h => by simp at h⟩
        · split at h
          · simp at h
          · rename_i pln st1 hi
            obtain ⟨k1, k2, k3, k4⟩ := invokeSolver_spec hr (fun ha => hA ha d (List.mem_of_getElem? hd)) (Or.inr (Or.inl rfl)) hi
            have hnp : st1.nplan = st.nplan := k1.nplan (Or.inl rfl)
            have hq1 : ∀ st3 : PSt, st3.flags = st1.flags → st3.nthr = st1.nthr → (st3.wstate = st.wstate ∨ st3.wstate = .bogus) → st3.nplan = st1.nplan → QKeep st st3 := by
              intro st3 e1 e2 e3 e4
              exact ⟨by rw [e1, k2], by rw [e2, k3], e3, fun _ => by rw [e4, hnp]⟩
            obtain ⟨c1, c2, c3, c4, c5⟩ := checkBogosity_spec env p st1
            generalize checkBogosity env p st1 = C at h c1 c2 c3 c4 c5
            obtain ⟨bog, st2⟩ := C
            simp only at h c1 c2 c3 c4 c5
            split at h
            · simp only [bogusExit, Except.ok.injEq, Prod.mk.injEq] at h
              obtain ⟨rfl, rfl⟩ := h
              exact ⟨hq1 _ c1 c2 (Or.inr rfl) c3, fun _ _ _ h => by simp at h⟩
            · split at h
              · simp only [bogusExit, Except.ok.injEq, Prod.mk.injEq] at h
                obtain ⟨rfl, rfl⟩ := h
                exact ⟨hq1 _ c1 c2 (Or.inr rfl) c3, fun _ _ _ h => by simp at h⟩
              · obtain ⟨rfl, e1, e2, e3, e4⟩ := skipSearch_spec h
                refine ⟨hq1 _ (e1.trans c1) (e2.trans c2) (Or.inl e3) (e4.trans c3), ?_⟩
                intro ha hk pl hpl
                rename_i b
                simp only [Option.map_some, Option.some.injEq] at hpl
                subst hpl
                exact Sound.mono (subsumes_l hsol hfeas) (k4 ha hk b rfl)

theorem mkplanBody_ok {A : Prop} {rec : Rec} (hr : RecOK A rec) {env : Env} (hA : A → ∀ d ∈ env.slvdescs, d.slv.Sound) : RecOK A (mkplanBody rec env) := by
  intro p st r st' hp h
  unfold mkplanBody at h
  simp only at h
  have hst : ∃ st0 : PSt, (if st.estimatep = true then { st with flags := { st.flags with tli := 0 } } else st) = st0 ∧ st0.flags.l = st.flags.l ∧ st0.flags.u = st.flags.u ∧
      st0.flags.hi = st.flags.hi ∧ st0.nthr = st.nthr ∧ st0.wstate = st.wstate ∧ st0.nplan = st.nplan ∧
      (st0.flags.tli = st.flags.tli ∨ (st.estimatep = true ∧ st0.flags.tli = 0)) := by
    split
    · exact ⟨_, rfl, rfl, rfl, rfl, rfl, rfl, rfl, Or.inr ⟨by assumption, rfl⟩⟩
    · exact ⟨_, rfl, rfl, rfl, rfl, rfl, rfl, rfl, Or.inl rfl⟩
  obtain ⟨st0, he, a1, a2, a3, a4, a5, a6, a7⟩ := hst
  rw [he] at h
  obtain ⟨c1, c2, c3, c4, c5⟩ := checkBogosity_spec env p st0
  generalize checkBogosity env p st0 = C at h c1 c2 c3 c4 c5
  obtain ⟨bog, st2⟩ := C
  simp only at h c1 c2 c3 c4 c5
  -- reduce to `QKeep` from the state after the check
  have fin : ∀ st3 r, st3.flags = st0.flags → st3.nthr = st0.nthr → (st3.wstate = st0.wstate ∨ st3.wstate = .bogus) → (Quiet st0 → st3.nplan = st0.nplan) →
      (A → Kosher p → ∀ pl, r = some pl → Sound (ndOf st0.flags.l) p pl) → Post A p st r st3 := by
    intro st3 r e1 e2 e3 e4 e5
    refine ⟨⟨by rw [e1, a1], by rw [e1, a2], by rw [e1, a3], by rw [← a5]; exact e3, ?_⟩, by rw [e2, a4], ?_, by rw [← a1]; exact e5⟩
    · intro hq; rw [← a6]; exact e4 (by unfold Quiet at *; rw [a5]; exact hq)
    · rw [e1]; exact a7
  split at h
  · simp only [bogusExit, Except.ok.injEq, Prod.mk.injEq] at h
    obtain ⟨rfl, rfl⟩ := h
    exact fin _ _ c1 c2 (Or.inr rfl) (fun _ => c3) (fun _ _ _ h => by simp at h)
  · rename_i hbog
    obtain ⟨w1, w2⟩ := c5 (by simpa using hbog)
    set st3 : PSt := { st2 with timedOut := false, nprob := st2.nprob + 1 } with hst3
    have hf3 : st3.flags = st0.flags := c1
    have hw3 : st3.wstate = st0.wstate := w1
    have hp3 : Pre st3 := by
      rcases hp with hp | hp
      · left; rw [hf3, a1, a2]; exact hp
      · right; unfold Quiet at *; rw [hw3, a5]; exact hp
    have hb3 : st3.wstate ≠ .bogus := by rw [hw3]; exact w2
    have fin3 : ∀ st4 r, QKeep st3 st4 → (A → Kosher p → ∀ pl, r = some pl → Sound (ndOf st3.flags.l) p pl) → Post A p st r st4 := by
      intro st4 r q hs
      refine fin st4 r (q.flags.trans hf3) (q.nthr.trans c2) (by rw [← hw3]; exact q.wst) ?_ (by rw [← hf3]; exact hs)
      intro hq
      exact (q.nplan (by unfold Quiet at *; rw [hw3]; exact hq)).trans c3
    split at h
    · split at h
      · simp at h
      · rename_i sol hl
        obtain ⟨q, s⟩ := useWisdom_spec hr hA hp3 hb3 (hlookup_cand hl).2.2 h
        exact fin3 _ _ q s
      · obtain ⟨q, s, _⟩ := doSearch_spec hr hA hp3 hb3 h
        exact fin3 _ _ q s
    · obtain ⟨q, s, _⟩ := doSearch_spec hr hA hp3 hb3 h
      exact fin3 _ _ q s

theorem mkplan_ok (env : Env) (n : ℕ) : RecOK (∀ d ∈ env.slvdescs, d.slv.Sound) (mkplan env n) := by
  induction n with
  | zero => intro p st r st' _ h; simp [mkplan] at h
  | succ n ih => exact mkplanBody_ok ih (fun h => h)

end FFTW.Planner
