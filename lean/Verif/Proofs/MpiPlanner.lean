import Verif.Model.MpiPlanner
import Verif.Proofs.Planner2

/-! without a time limit, serial planning does not time out -/

namespace FFTW.Planner

/-- if the clock is never late, `f` keeps `timed_out = 0` -/
def NT (rec : Rec) : Prop := ∀ p st r st', rec p st = .ok (r, st') → st.timedOut = false → st'.timedOut = false

theorem mkplanFD_nt {rec : Rec} (hr : NT rec) {p : Problem} {m : FMod} {st : PSt} {r : Option Plan} {st' : PSt} (h : mkplanFD rec p m st = .ok (r, st'))
    (h0 : st.timedOut = false) : st'.timedOut = false := by
  unfold mkplanFD at h
  simp only at h
  split at h
  · exact hr _ _ _ _ h h0
  · simp only [bind, Except.bind] at h
    split at h
    · simp at h
    · rename_i x hx
      simp only [pure, Except.pure, Except.ok.injEq, Prod.mk.injEq] at h
      obtain ⟨rfl, rfl⟩ := h
      exact hr p _ x.1 x.2 hx h0

theorem runMk_nt {rec : Rec} (hr : NT rec) {α : Type} (t : Mk α) : ∀ {st : PSt} {a : α} {st' : PSt}, runMk rec t st = .ok (a, st') → st.timedOut = false → st'.timedOut = false := by
  induction t with
  | ret a =>
    intro st a' st' h h0
    simp only [runMk, Except.ok.injEq, Prod.mk.injEq] at h
    rw [← h.2]; exact h0
  | plan p m k ih =>
    intro st a st' h h0
    rw [runMk] at h
    cases hm : mkplanFD rec p m st with
    | error e => rw [hm] at h; simp at h
    | ok x =>
      obtain ⟨r, st1⟩ := x
      rw [hm] at h
      exact ih r h (mkplanFD_nt hr hm h0)

theorem invokeSolver_nt {rec : Rec} (hr : NT rec) {env : Env} {p : Problem} {s : Solver} {f : FlagsT} {st : PSt} {r : Option BPlan} {st' : PSt}
    (h : invokeSolver rec env p s f st = .ok (r, st')) (h0 : st.timedOut = false) : st'.timedOut = false := by
  unfold invokeSolver at h
  simp only [bind, Except.bind] at h
  split at h
  · simp at h
  · rename_i x hx
    simp only [pure, Except.pure, Except.ok.injEq, Prod.mk.injEq] at h
    obtain ⟨rfl, rfl⟩ := h
    exact runMk_nt hr _ (a := x.1) (st' := x.2) hx h0

theorem timeoutP_nt {env : Env} (hl : ∀ t, env.world.late t = false) {st : PSt} (h0 : st.timedOut = false) :
    (timeoutP env st).1 = false ∧ (timeoutP env st).2.timedOut = false := by
  unfold timeoutP
  split
  · rw [if_neg (by rw [h0]; decide), if_neg (by rw [hl]; decide)]
    exact ⟨rfl, h0⟩
  · exact ⟨rfl, h0⟩

theorem evaluatePlan_nt (env : Env) (b : BPlan) (st : PSt) : (evaluatePlan env b st).2.timedOut = st.timedOut := by
  unfold evaluatePlan
  split <;> rfl

theorem consider_nt (env : Env) (best : Found) (nt : Bool) (pln : BPlan) (i : ℕ) (st : PSt) : (consider env best nt pln i st).2.2.timedOut = st.timedOut := by
  unfold consider
  cases best with
  | none => rfl
  | some x =>
    obtain ⟨b, j⟩ := x
    simp only
    cases nt
    · simp only [Bool.false_eq_true, if_false]
      split <;> exact evaluatePlan_nt _ _ _
    · simp only [if_true]
      split <;> exact (evaluatePlan_nt _ _ _).trans (evaluatePlan_nt _ _ _)

theorem search0Loop_nt {rec : Rec} (hr : NT rec) {env : Env} (hl : ∀ t, env.world.late t = false) {p : Problem} {f : FlagsT} (L : List ℕ) :
    ∀ {best : Found} {nt : Bool} {st : PSt} {r : Found} {st' : PSt}, search0Loop rec env p f L best nt st = .ok (r, st') → st.timedOut = false → st'.timedOut = false := by
  induction L with
  | nil =>
    intro best nt st r st' h h0
    simp only [search0Loop, Except.ok.injEq, Prod.mk.injEq] at h
    rw [← h.2]; exact h0
  | cons i rest ih =>
    intro best nt st r st' h h0
    rw [search0Loop] at h
    split at h
    · simp at h
    · rename_i d hd
      split at h
      · simp at h
      · rename_i pln st1 hi
        have h1 := invokeSolver_nt hr hi h0
        have h2 : (if st1.needCheck = true then timeoutP env st1 else (false, st1)).1 = false ∧
            (if st1.needCheck = true then timeoutP env st1 else (false, st1)).2.timedOut = false := by
          split
          · exact timeoutP_nt hl h1
          · exact ⟨rfl, h1⟩
        generalize (if st1.needCheck = true then timeoutP env st1 else (false, st1)) = T at h h2
        obtain ⟨late, st2⟩ := T
        simp only at h h2
        obtain ⟨rfl, h2⟩ := h2
        rw [if_neg (by decide)] at h
        split at h
        · exact ih h h2
        · rename_i b
          have h3 := (consider_nt env best nt b i st2).trans h2
          split at h
          · simp only [Except.ok.injEq, Prod.mk.injEq] at h
            rw [← h.2]; exact h3
          · exact ih h h3

theorem search0_nt {rec : Rec} (hr : NT rec) {env : Env} (hl : ∀ t, env.world.late t = false) {p : Problem} {f : FlagsT} {st : PSt} {r : Found} {st' : PSt}
    (h : search0 rec env p f st = .ok (r, st')) (h0 : st.timedOut = false) : st'.timedOut = false := by
  unfold search0 at h
  have h2 := timeoutP_nt hl h0
  generalize timeoutP env st = T at h h2
  obtain ⟨late, st2⟩ := T
  simp only at h h2
  obtain ⟨rfl, h2⟩ := h2
  rw [if_neg (by decide)] at h
  exact search0Loop_nt hr hl _ h h2

theorem searchLoop_nt {rec : Rec} (hr : NT rec) {env : Env} (hl : ∀ t, env.world.late t = false) {p : Problem} {lorig : BitVec 20} (L : List (BitVec 20)) :
    ∀ {x : BitVec 20} {lx : Option (BitVec 20)} {f : FlagsT} {st : PSt} {r : Found × FlagsT × Option (BitVec 20) × PSt},
      searchLoop rec env p lorig L x lx f st = .ok r → st.timedOut = false → r.2.2.2.timedOut = false := by
  induction L with
  | nil =>
    intro x lx f st r h h0
    simp only [searchLoop, Except.ok.injEq] at h
    rw [← h]; exact h0
  | cons a rest ih =>
    intro x lx f st r h h0
    rw [searchLoop] at h
    simp only at h
    generalize (if LEQ lorig (x &&& ~~~a) = true then x &&& ~~~a else x) = y at h
    split at h
    · split at h
      · simp at h
      · rename_i b st1 hs
        simp only [Except.ok.injEq] at h
        rw [← h]; exact search0_nt hr hl hs h0
      · rename_i st1 hs
        exact ih h (search0_nt hr hl hs h0)
    · exact ih h h0

theorem search_nt {rec : Rec} (hr : NT rec) {env : Env} (hl : ∀ t, env.world.late t = false) {p : Problem} {f : FlagsT} {st : PSt} {r : Found × FlagsT × PSt}
    (h : search rec env p f st = .ok r) (h0 : st.timedOut = false) : r.2.2.timedOut = false := by
  unfold search at h
  simp only [bind, Except.bind] at h
  split at h
  · simp at h
  · rename_i x hx
    have h1 := searchLoop_nt hr hl _ hx h0
    split at h
    · simp only [pure, Except.pure, Except.ok.injEq] at h
      rw [← h]; exact h1
    · split at h
      · split at h
        · simp at h
        · rename_i y hy
          simp only [pure, Except.pure, Except.ok.injEq] at h
          rw [← h]; exact search0_nt hr hl (r := y.1) (st' := y.2) hy h1
      · simp only [pure, Except.pure, Except.ok.injEq] at h
        rw [← h]; exact h1

theorem hinsert_nt {st st' : PSt} {s : MSig} {f : FlagsT} {n : BitVec 12} (h : hinsert st s f n = .ok st') : st'.timedOut = st.timedOut := by
  unfold hinsert at h
  split at h
  · split at h
    · simp at h
    · simp only [bind, Except.bind] at h
      split at h
      · simp at h
      · simp only [pure, Except.pure, Except.ok.injEq] at h
        rw [← h]
  · split at h
    · simp at h
    · simp only [bind, Except.bind] at h
      split at h
      · simp at h
      · simp only [pure, Except.pure, Except.ok.injEq] at h
        rw [← h]

theorem skipSearch_nt {m : MSig} {f : FlagsT} {b : Option (Plan × ℕ)} {st : PSt} {r : Option Plan} {st' : PSt} (h : skipSearch m f b st = .ok (r, st')) :
    st'.timedOut = st.timedOut := by
  unfold skipSearch at h
  split at h
  · simp only [bind, Except.bind] at h
    split at h
    · simp at h
    · rename_i x hx
      simp only [pure, Except.pure, Except.ok.injEq, Prod.mk.injEq] at h
      rw [← h.2]; exact hinsert_nt hx
  · simp only [pure, Except.pure, Except.ok.injEq, Prod.mk.injEq] at h
    rw [← h.2]

theorem doSearch_nt {rec : Rec} (hr : NT rec) {env : Env} (hl : ∀ t, env.world.late t = false) {p : Problem} {m : MSig} {st : PSt} {r : Option Plan} {st' : PSt}
    (h : doSearch rec env p m st = .ok (r, st')) (h0 : st.timedOut = false) : st'.timedOut = false := by
  unfold doSearch at h
  split at h
  · simp only [bogusExit, Except.ok.injEq, Prod.mk.injEq] at h
    rw [← h.2]; exact h0
  · split at h
    · simp at h
    · rename_i b f1 st1 hs
      have h1 := search_nt hr hl hs h0
      replace h1 : (checkBogosity env p st1).2.timedOut = false := h1
      generalize checkBogosity env p st1 = C at h h1
      obtain ⟨bog, st2⟩ := C
      simp only at h h1
      split at h
      · simp only [bogusExit, Except.ok.injEq, Prod.mk.injEq] at h
        rw [← h.2]; exact h1
      · split at h
        · rename_i ht
          rw [h1] at ht; simp at ht
        · exact (skipSearch_nt h).trans h1

theorem useWisdom_nt {rec : Rec} (hr : NT rec) {env : Env} (hl : ∀ t, env.world.late t = false) {p : Problem} {m : MSig} {sol : Slot} {st : PSt} {r : Option Plan} {st' : PSt}
    (h : useWisdom rec env p m sol st = .ok (r, st')) (h0 : st.timedOut = false) : st'.timedOut = false := by
  unfold useWisdom at h
  simp only at h
  split at h
  · exact doSearch_nt hr hl h h0
  · split at h
    · split at h
      · exact doSearch_nt hr hl h h0
      · simp only [Except.ok.injEq, Prod.mk.injEq] at h
        rw [← h.2]; exact h0
    · split at h
      · simp at h
      · split at h
        · simp only [bogusExit, Except.ok.injEq, Prod.mk.injEq] at h
          rw [← h.2]; exact h0
        · split at h
          · simp at h
          · rename_i pln st1 hi
            have h1 := invokeSolver_nt hr hi h0
            replace h1 : (checkBogosity env p st1).2.timedOut = false := h1
            generalize checkBogosity env p st1 = C at h h1
            obtain ⟨bog, st2⟩ := C
            simp only at h h1
            split at h
            · simp only [bogusExit, Except.ok.injEq, Prod.mk.injEq] at h
              rw [← h.2]; exact h1
            · split at h
              · simp only [bogusExit, Except.ok.injEq, Prod.mk.injEq] at h
                rw [← h.2]; exact h1
              · exact (skipSearch_nt h).trans h1

theorem mkplanBody_nt {rec : Rec} (hr : NT rec) {env : Env} (hl : ∀ t, env.world.late t = false) : NT (mkplanBody rec env) := by
  intro p st r st' h h0
  unfold mkplanBody at h
  simp only at h
  have h1 : (if st.estimatep = true then { st with flags := { st.flags with tli := 0 } } else st).timedOut = false := by split <;> exact h0
  generalize (if st.estimatep = true then { st with flags := { st.flags with tli := 0 } } else st) = st1 at h h1
  replace h1 : (checkBogosity env p st1).2.timedOut = false := h1
  generalize checkBogosity env p st1 = C at h h1
  obtain ⟨bog, st2⟩ := C
  simp only at h h1
  split at h
  · simp only [bogusExit, Except.ok.injEq, Prod.mk.injEq] at h
    rw [← h.2]; exact h1
  · split at h
    · split at h
      · simp at h
      · exact useWisdom_nt hr hl h rfl
      · exact doSearch_nt hr hl h rfl
    · exact doSearch_nt hr hl h rfl

theorem mkplan_nt {env : Env} (hl : ∀ t, env.world.late t = false) (n : ℕ) : NT (mkplan env n) := by
  induction n with
  | zero => intro p st r st' h; simp [mkplan] at h
  | succ n ih => exact mkplanBody_nt ih hl

end FFTW.Planner
