import Verif.Spec.Trace
import Verif.Spec.Sound
import Verif.Proofs.GenLoop
import Verif.Proofs.Half

namespace FFTW.Planner
open FFTW.Spec

/-- `NO_DESTROY_INPUTP` of the current flags -/
def ndOf (l : BitVec 20) : Bool := decide (l &&& NO_DESTROY_INPUT ≠ 0)

/-- the planner may not search -/
def Quiet (st : PSt) : Prop := st.wstate = .only ∨ st.wstate = .bogus

/-- precondition of `mkplan` (the assertion at kernel/planner.c:638), needed only when searching is possible -/
def Pre (st : PSt) : Prop := LEQ st.flags.l st.flags.u = true ∨ Quiet st

/-- what every planner action preserves -/
structure Keep (st st' : PSt) : Prop where
  l : st'.flags.l = st.flags.l
  u : st'.flags.u = st.flags.u
  hi : st'.flags.hi = st.flags.hi
  wst : st'.wstate = st.wstate ∨ st'.wstate = .bogus
  nplan : Quiet st → st'.nplan = st.nplan

theorem Keep.refl (st : PSt) : Keep st st := ⟨rfl, rfl, rfl, Or.inl rfl, fun _ => rfl⟩

theorem Keep.quiet {st st' : PSt} (h : Keep st st') (hq : Quiet st) : Quiet st' := by
  rcases h.wst with h | h
  · unfold Quiet; rw [h]; exact hq
  · exact Or.inr h

theorem Keep.trans {a b c : PSt} (h : Keep a b) (h' : Keep b c) : Keep a c := by
  refine ⟨h'.l.trans h.l, h'.u.trans h.u, h'.hi.trans h.hi, ?_, fun hq => (h'.nplan (h.quiet hq)).trans (h.nplan hq)⟩
  rcases h'.wst with h2 | h2
  · rw [h2]; exact h.wst
  · exact Or.inr h2

theorem Keep.pre {a b : PSt} (h : Keep a b) (hp : Pre a) : Pre b := by
  rcases hp with hp | hp
  · left; rw [h.l, h.u]; exact hp
  · exact Or.inr (h.quiet hp)

/-- specification of `mkplan`; `A` says that all solvers are sound -/
structure Post (A : Prop) (p : Problem) (st : PSt) (r : Option Plan) (st' : PSt) : Prop where
  keep : Keep st st'
  nthr : st'.nthr = st.nthr
  tli : st'.flags.tli = st.flags.tli ∨ (st.estimatep = true ∧ st'.flags.tli = 0)
  sound : A → Kosher p → ∀ pl, r = some pl → Sound (ndOf st.flags.l) p pl

/-- `rec` meets the specification -/
def RecOK (A : Prop) (rec : Rec) : Prop := ∀ p st r st', Pre st → rec p st = .ok (r, st') → Post A p st r st'

theorem Sound.mono {p : Problem} {pl : Plan} {l l' : BitVec 20} (h : LEQ l l' = true) (hs : Sound (ndOf l') p pl) : Sound (ndOf l) p pl := by
  have key : ndOf l' = ndOf l ∨ ndOf l = false := by
    unfold ndOf
    by_cases h1 : l &&& NO_DESTROY_INPUT = 0
    · right; simp [h1]
    · left
      have : l' &&& NO_DESTROY_INPUT ≠ 0 := by
        intro h2
        apply h1
        simp only [LEQ, decide_eq_true_eq] at h
        rw [← h, BitVec.and_assoc, h2]; simp
      rw [decide_eq_true h1, decide_eq_true this]
  rcases key with h1 | h1
  · rw [← h1]; exact hs
  · rw [h1]
    cases h2 : ndOf l' with
    | false => rwa [h2] at hs
    | true =>
      rw [h2] at hs
      cases p <;> cases pl <;> simp only [Sound] at hs ⊢
      · exact hs.weaken (by simp)
      · exact hs.weaken (by simp)
      · exact hs.weaken (by simp)
      · exact hs

theorem modify_nd (fl : Flags) (m : FMod) : (fl.modify m).nd = ndOf ((fl.l &&& ~~~ m.ureset) ||| m.lset) := rfl

theorem and_not_zero (l : BitVec 20) : (l &&& ~~~ (0 : BitVec 20)) ||| 0 = l := by
  have : ~~~ (0 : BitVec 20) = BitVec.allOnes 20 := by decide
  rw [this, BitVec.and_allOnes]; exact BitVec.or_zero

theorem LEQ_modify {l u r ls us : BitVec 20} (h : LEQ l u = true) : LEQ ((l &&& ~~~ r) ||| ls) ((u &&& ~~~ r) ||| (us ||| ls)) = true := by
  simp only [LEQ, decide_eq_true_eq] at *
  ext i hi
  have h2 := congrArg (fun b => b[i]) h
  simp only [BitVec.getElem_and, BitVec.getElem_or, BitVec.getElem_not] at h2 ⊢
  revert h2
  cases l[i] <;> cases u[i] <;> cases r[i] <;> cases ls[i] <;> cases us[i] <;> simp

theorem mkplanFD_spec {A : Prop} {rec : Rec} (hr : RecOK A rec) {p : Problem} {m : FMod} {st : PSt} {fl : Flags} (hl : fl.l = st.flags.l) (hp : Pre st)
    {r : Option Plan} {st' : PSt} (h : mkplanFD rec p m st = .ok (r, st')) :
    Keep st st' ∧ (A → Kosher p → ∀ pl, r = some pl → Sound (fl.modify m).nd p pl) := by
  unfold mkplanFD at h
  simp only at h
  split at h
  · rename_i hm
    have := hr p { st with nthr := m.nthr.getD st.nthr } r st' hp h
    refine ⟨⟨this.keep.l, this.keep.u, this.keep.hi, this.keep.wst, this.keep.nplan⟩, ?_⟩
    rw [modify_nd, hm.1, hm.2.2, and_not_zero, hl]
    exact this.sound
  · cases hrec : rec p { st with nthr := m.nthr.getD st.nthr, flags := { st.flags with
      l := (st.flags.l &&& ~~~ m.ureset) ||| m.lset
      u := (st.flags.u &&& ~~~ m.ureset) ||| (m.uset ||| m.lset) } } with
    | error e => simp only at hrec; rw [hrec] at h; simp [bind, Except.bind] at h
    | ok x =>
      obtain ⟨r1, st1⟩ := x
      simp only at hrec
      rw [hrec] at h
      simp only [bind, Except.bind, pure, Except.pure, Except.ok.injEq, Prod.mk.injEq] at h
      obtain ⟨rfl, rfl⟩ := h
      have hpre : Pre { st with nthr := m.nthr.getD st.nthr, flags := { st.flags with
          l := (st.flags.l &&& ~~~ m.ureset) ||| m.lset
          u := (st.flags.u &&& ~~~ m.ureset) ||| (m.uset ||| m.lset) } } := by
        rcases hp with hp | hp
        · exact Or.inl (LEQ_modify hp)
        · exact Or.inr hp
      have := hr p _ _ _ hpre hrec
      refine ⟨⟨rfl, rfl, rfl, this.keep.wst, this.keep.nplan⟩, ?_⟩
      rw [modify_nd, hl]
      exact this.sound

theorem runMk_spec {A : Prop} {rec : Rec} (hr : RecOK A rec) {α : Type} {fl : Flags} {Q : α → Prop} (t : Mk α) : ∀ {st : PSt}, fl.l = st.flags.l → Pre st →
    ∀ {a : α} {st' : PSt}, runMk rec t st = .ok (a, st') → Keep st st' ∧ (A → t.Good fl Q → Q a) := by
  induction t with
  | ret a =>
    intro st _ _ a' st' h
    simp only [runMk, Except.ok.injEq, Prod.mk.injEq] at h
    obtain ⟨rfl, rfl⟩ := h
    exact ⟨Keep.refl _, fun _ hg => hg⟩
  | plan p m k ih =>
    intro st hl hp a st' h
    rw [runMk] at h
    cases hm : mkplanFD rec p m st with
    | error e => rw [hm] at h; simp at h
    | ok x =>
      obtain ⟨r, st1⟩ := x
      rw [hm] at h
      simp only at h
      obtain ⟨hk, hs⟩ := mkplanFD_spec hr hl hp hm
      obtain ⟨h1, h2⟩ := ih r (by rw [hk.l]; exact hl) (hk.pre hp) h
      exact ⟨hk.trans h1, fun ha hg => h2 ha (hg.2 r (hs ha hg.1))⟩

/-- planner state that differs from `st` only in fields `Keep` does not mention -/
theorem invokeSolver_spec {A : Prop} {rec : Rec} (hr : RecOK A rec) {env : Env} {p : Problem} {s : Solver} (hA : A → s.Sound) {f : FlagsT} {st : PSt}
    (hp : LEQ f.l f.u = true ∨ Quiet st) {r : Option BPlan} {st' : PSt} (h : invokeSolver rec env p s f st = .ok (r, st')) :
    Keep st st' ∧ st'.flags = st.flags ∧ st'.nthr = st.nthr ∧ (A → Kosher p → ∀ b, r = some b → Sound (ndOf f.l) p b.pl) := by
  unfold invokeSolver at h
  simp only [bind, Except.bind] at h
  cases hm : runMk rec (s.mkplan p { st with flags := { f with tli := 0 } : PSt}.seen) { st with flags := { f with tli := 0 } } with
  | error e => rw [hm] at h; simp at h
  | ok x =>
    obtain ⟨a, st1⟩ := x
    rw [hm] at h
    simp only [pure, Except.pure, Except.ok.injEq, Prod.mk.injEq] at h
    obtain ⟨rfl, rfl⟩ := h
    obtain ⟨h1, h2⟩ := runMk_spec (fl := ({ st with flags := { f with tli := 0 } } : PSt).seen)
      (Q := fun r => ∀ pl, r = some pl → Sound (ndOf f.l) p pl) hr _ (by rfl) (by exact hp) hm
    refine ⟨⟨rfl, rfl, rfl, h1.wst, h1.nplan⟩, rfl, rfl, ?_⟩
    intro ha hk b hb
    obtain ⟨pl, hpl, rfl⟩ := Option.map_eq_some_iff.1 hb
    exact h2 ha (hA ha p _ hk) pl hpl

theorem timeoutP_spec (env : Env) (st : PSt) : Keep st (timeoutP env st).2 ∧ (timeoutP env st).2.flags = st.flags ∧ (timeoutP env st).2.nthr = st.nthr ∧
    (timeoutP env st).2.wstate = st.wstate ∧ (timeoutP env st).2.nplan = st.nplan ∧ (timeoutP env st).2.blessed = st.blessed ∧
    (timeoutP env st).2.unblessed = st.unblessed := by
  unfold timeoutP
  split
  · split
    · exact ⟨Keep.refl _, rfl, rfl, rfl, rfl, rfl, rfl⟩
    · split
      · exact ⟨⟨rfl, rfl, rfl, Or.inl rfl, fun _ => rfl⟩, rfl, rfl, rfl, rfl, rfl, rfl⟩
      · exact ⟨⟨rfl, rfl, rfl, Or.inl rfl, fun _ => rfl⟩, rfl, rfl, rfl, rfl, rfl, rfl⟩
  · exact ⟨⟨rfl, rfl, rfl, Or.inl rfl, fun _ => rfl⟩, rfl, rfl, rfl, rfl, rfl, rfl⟩

theorem evaluatePlan_spec (env : Env) (b : BPlan) (st : PSt) : (evaluatePlan env b st).1.pl = b.pl ∧ (evaluatePlan env b st).1.prune = b.prune ∧
    (evaluatePlan env b st).2.flags = st.flags ∧ (evaluatePlan env b st).2.nthr = st.nthr ∧ (evaluatePlan env b st).2.wstate = st.wstate ∧
    (evaluatePlan env b st).2.blessed = st.blessed ∧ (evaluatePlan env b st).2.unblessed = st.unblessed ∧
    (evaluatePlan env b st).2.timedOut = st.timedOut := by
  unfold evaluatePlan
  split <;> exact ⟨rfl, rfl, rfl, rfl, rfl, rfl, rfl, rfl⟩

theorem consider_spec (env : Env) (best : Found) (nt : Bool) (pln : BPlan) (i : ℕ) (st : PSt) :
    (((consider env best nt pln i st).1.1.pl = pln.pl ∧ (consider env best nt pln i st).1.2 = i) ∨
      ∃ b j, best = some (b, j) ∧ (consider env best nt pln i st).1.1.pl = b.pl ∧ (consider env best nt pln i st).1.2 = j) ∧
    (consider env best nt pln i st).2.2.flags = st.flags ∧ (consider env best nt pln i st).2.2.nthr = st.nthr ∧
    (consider env best nt pln i st).2.2.wstate = st.wstate ∧ (consider env best nt pln i st).2.2.blessed = st.blessed ∧
    (consider env best nt pln i st).2.2.unblessed = st.unblessed := by
  unfold consider
  cases best with
  | none => exact ⟨Or.inl ⟨rfl, rfl⟩, rfl, rfl, rfl, rfl, rfl⟩
  | some x =>
    obtain ⟨b, j⟩ := x
    simp only
    cases nt
    · simp only [Bool.false_eq_true, if_false]
      obtain ⟨h1, h2, h3, h4, h5, h6, h7, _⟩ := evaluatePlan_spec env pln st
      split
      · exact ⟨Or.inl ⟨h1, rfl⟩, h3, h4, h5, h6, h7⟩
      · exact ⟨Or.inr ⟨b, j, rfl, rfl, rfl⟩, h3, h4, h5, h6, h7⟩
    · simp only [if_true]
      obtain ⟨g1, g2, g3, g4, g5, g6, g7, _⟩ := evaluatePlan_spec env b st
      obtain ⟨h1, h2, h3, h4, h5, h6, h7, _⟩ := evaluatePlan_spec env pln (evaluatePlan env b st).2
      split
      · exact ⟨Or.inl ⟨h1, rfl⟩, h3.trans g3, h4.trans g4, h5.trans g5, h6.trans g6, h7.trans g7⟩
      · exact ⟨Or.inr ⟨b, j, rfl, g1, rfl⟩, h3.trans g3, h4.trans g4, h5.trans g5, h6.trans g6, h7.trans g7⟩

theorem SKeep.refl (st : PSt) : SKeep st st := ⟨rfl, rfl, Or.inl rfl⟩
theorem SKeep.trans {a b c : PSt} (h : SKeep a b) (h' : SKeep b c) : SKeep a c := by
  refine ⟨h'.flags.trans h.flags, h'.nthr.trans h.nthr, ?_⟩
  rcases h'.wst with h2 | h2
  · rw [h2]; exact h.wst
  · exact Or.inr h2

theorem search0Loop_spec {A : Prop} {rec : Rec} (hr : RecOK A rec) {env : Env} (hA : A → ∀ d ∈ env.slvdescs, d.slv.Sound) {p : Problem} {f : FlagsT}
    (hf : LEQ f.l f.u = true) (L : List ℕ) : ∀ {best : Found} {nt : Bool} {st : PSt} {r : Found} {st' : PSt},
    (A → Kosher p → ∀ b j, best = some (b, j) → Sound (ndOf f.l) p b.pl) → search0Loop rec env p f L best nt st = .ok (r, st') →
    SKeep st st' ∧ (A → Kosher p → ∀ b j, r = some (b, j) → Sound (ndOf f.l) p b.pl) := by
  induction L with
  | nil =>
    intro best nt st r st' hb h
    simp only [search0Loop, Except.ok.injEq, Prod.mk.injEq] at h
    obtain ⟨rfl, rfl⟩ := h
    exact ⟨SKeep.refl _, hb⟩
  | cons i L ih =>
    intro best nt st r st' hb h
    rw [search0Loop] at h
    cases hd : env.slvdescs[i]? with
    | none => rw [hd] at h; simp at h
    | some d =>
      rw [hd] at h
      simp only at h
      cases hi : invokeSolver rec env p d.slv f st with
      | error e => rw [hi] at h; simp at h
      | ok x =>
        obtain ⟨pln, st1⟩ := x
        rw [hi] at h
        simp only at h
        obtain ⟨k1, k2, k3, k4⟩ := invokeSolver_spec hr (fun ha => hA ha d (List.mem_of_getElem? hd)) (Or.inl hf) hi
        have sk1 : SKeep st st1 := ⟨k2, k3, k1.wst⟩
        have sk2 : SKeep st1 (if st1.needCheck then timeoutP env st1 else (false, st1)).2 := by
          split
          · obtain ⟨_, t2, t3, t4, _⟩ := timeoutP_spec env st1
            exact ⟨t2, t3, Or.inl t4⟩
          · exact SKeep.refl _
        generalize (if st1.needCheck then timeoutP env st1 else (false, st1)) = T at h sk2
        obtain ⟨late, st2⟩ := T
        simp only at h sk2
        split at h
        · simp only [Except.ok.injEq, Prod.mk.injEq] at h
          obtain ⟨rfl, rfl⟩ := h
          exact ⟨sk1.trans sk2, fun _ _ b j h => by simp at h⟩
        · cases pln with
          | none =>
            simp only at h
            obtain ⟨i1, i2⟩ := ih hb h
            exact ⟨(sk1.trans sk2).trans i1, i2⟩
          | some pln =>
            simp only at h
            obtain ⟨c1, c2, c3, c4, _, _⟩ := consider_spec env best nt pln i st2
            have sk3 := (sk1.trans sk2).trans (⟨c2, c3, Or.inl c4⟩ : SKeep _ (consider env best nt pln i st2).2.2)
            have hb' : A → Kosher p → Sound (ndOf f.l) p (consider env best nt pln i st2).1.1.pl := by
              intro ha hk
              rcases c1 with ⟨c1, _⟩ | ⟨b, j, hbest, c1, _⟩
              · rw [c1]; exact k4 ha hk pln rfl
              · rw [c1]; exact hb ha hk b j hbest
            split at h
            · simp only [Except.ok.injEq, Prod.mk.injEq] at h
              obtain ⟨rfl, rfl⟩ := h
              refine ⟨sk3, ?_⟩
              intro ha hk b j hbj
              have := Option.some.inj hbj
              have h2 := hb' ha hk
              rw [this] at h2; exact h2
            · obtain ⟨i1, i2⟩ := ih (best := some _) (fun ha hk b j hbj => by
                have := Option.some.inj hbj
                have h2 := hb' ha hk
                rw [this] at h2; exact h2) h
              exact ⟨sk3.trans i1, i2⟩

theorem search0_spec {A : Prop} {rec : Rec} (hr : RecOK A rec) {env : Env} (hA : A → ∀ d ∈ env.slvdescs, d.slv.Sound) {p : Problem} {f : FlagsT}
    (hf : LEQ f.l f.u = true) {st : PSt} {r : Found} {st' : PSt} (h : search0 rec env p f st = .ok (r, st')) :
    SKeep st st' ∧ (A → Kosher p → ∀ b j, r = some (b, j) → Sound (ndOf f.l) p b.pl) := by
  unfold search0 at h
  obtain ⟨_, t2, t3, t4, _⟩ := timeoutP_spec env st
  have sk : SKeep st (timeoutP env st).2 := ⟨t2, t3, Or.inl t4⟩
  simp only at h
  split at h
  · simp only [Except.ok.injEq, Prod.mk.injEq] at h
    obtain ⟨rfl, rfl⟩ := h
    exact ⟨sk, fun _ _ b j h => by simp at h⟩
  · obtain ⟨h1, h2⟩ := search0Loop_spec hr hA hf _ (fun _ _ b j h => by simp at h) h
    exact ⟨sk.trans h1, h2⟩

theorem LEQ_and_not {l u r : BitVec 20} (h : LEQ l u = true) : LEQ (l &&& ~~~ r) u = true := by
  simp only [LEQ, decide_eq_true_eq] at *
  rw [BitVec.and_assoc, BitVec.and_comm _ u, ← BitVec.and_assoc, h]

theorem searchLoop_spec {A : Prop} {rec : Rec} (hr : RecOK A rec) {env : Env} (hA : A → ∀ d ∈ env.slvdescs, d.slv.Sound) {p : Problem} {lorig : BitVec 20}
    (R : List (BitVec 20)) : ∀ {x : BitVec 20} {lastX : Option (BitVec 20)} {f : FlagsT} {st : PSt} {r : Found} {f' : FlagsT} {lastX' : Option (BitVec 20)} {st' : PSt},
    LEQ lorig x = true → LEQ x f.u = true → searchLoop rec env p lorig R x lastX f st = .ok (r, f', lastX', st') →
    SKeep st st' ∧ f'.u = f.u ∧ (A → Kosher p → ∀ b j, r = some (b, j) → Sound (ndOf lorig) p b.pl) := by
  induction R with
  | nil =>
    intro x lastX f st r f' lastX' st' _ _ h
    simp only [searchLoop, Except.ok.injEq, Prod.mk.injEq] at h
    obtain ⟨rfl, rfl, rfl, rfl⟩ := h
    exact ⟨SKeep.refl _, rfl, fun _ _ b j h => by simp at h⟩
  | cons q R ih =>
    intro x lastX f st r f' lastX' st' hlx hxu h
    rw [searchLoop] at h
    simp only at h
    have hx1 : LEQ lorig (if LEQ lorig (x &&& ~~~ q) then x &&& ~~~ q else x) = true := by
      split
      · assumption
      · exact hlx
    have hx2 : LEQ (if LEQ lorig (x &&& ~~~ q) then x &&& ~~~ q else x) f.u = true := by
      split
      · exact LEQ_and_not hxu
      · exact hxu
    generalize (if LEQ lorig (x &&& ~~~ q) then x &&& ~~~ q else x) = y at h hx1 hx2
    split at h
    · cases hs : search0 rec env p { f with l := y } st with
      | error e => rw [hs] at h; simp at h
      | ok z =>
        obtain ⟨b, st1⟩ := z
        rw [hs] at h
        obtain ⟨s1, s2⟩ := search0_spec hr hA (f := { f with l := y }) hx2 hs
        cases b with
        | some b =>
          simp only [Except.ok.injEq, Prod.mk.injEq] at h
          obtain ⟨rfl, rfl, rfl, rfl⟩ := h
          exact ⟨s1, rfl, fun ha hk b j hb => Sound.mono hx1 (s2 ha hk b j hb)⟩
        | none =>
          simp only at h
          obtain ⟨i1, i2, i3⟩ := ih (f := { f with l := y }) hx1 hx2 h
          exact ⟨s1.trans i1, i2, i3⟩
    · exact ih hx1 hx2 h

theorem search_spec {A : Prop} {rec : Rec} (hr : RecOK A rec) {env : Env} (hA : A → ∀ d ∈ env.slvdescs, d.slv.Sound) {p : Problem} {f : FlagsT}
    (hf : LEQ f.l f.u = true) {st : PSt} {r : Found} {f' : FlagsT} {st' : PSt} (h : search rec env p f st = .ok (r, f', st')) :
    SKeep st st' ∧ (A → Kosher p → ∀ b j, r = some (b, j) → Sound (ndOf f.l) p b.pl) := by
  unfold search at h
  simp only [bind, Except.bind] at h
  cases hs : searchLoop rec env p f.l relaxTab f.u none f st with
  | error e => rw [hs] at h; simp at h
  | ok z =>
    obtain ⟨b, f1, lastX, st1⟩ := z
    rw [hs] at h
    obtain ⟨s1, s2, s3⟩ := searchLoop_spec hr hA relaxTab hf (LEQ_refl' _) hs
    cases b with
    | some b =>
      simp only [pure, Except.pure, Except.ok.injEq, Prod.mk.injEq] at h
      obtain ⟨rfl, rfl, rfl⟩ := h
      exact ⟨s1, s3⟩
    | none =>
      simp only at h
      split at h
      · cases hs2 : search0 rec env p { f1 with l := f.l } st1 with
        | error e => rw [hs2] at h; simp at h
        | ok z =>
          obtain ⟨b, st2⟩ := z
          rw [hs2] at h
          simp only [pure, Except.pure, Except.ok.injEq, Prod.mk.injEq] at h
          obtain ⟨rfl, rfl, rfl⟩ := h
          obtain ⟨t1, t2⟩ := search0_spec hr hA (f := { f1 with l := f.l }) (by rw [s2]; exact hf) hs2
          exact ⟨s1.trans t1, t2⟩
      · simp only [pure, Except.pure, Except.ok.injEq, Prod.mk.injEq] at h
        obtain ⟨rfl, rfl, rfl⟩ := h
        exact ⟨s1, s3⟩
where
  LEQ_refl' {w : ℕ} (x : BitVec w) : LEQ x x = true := by simp [LEQ]

end FFTW.Planner
