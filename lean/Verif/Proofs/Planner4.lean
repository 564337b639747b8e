import Verif.Spec.Trace
import Verif.Proofs.Planner2

namespace FFTW.Planner

/-- the log agrees with the present candidate -/
structure LogOk (best : Found) (nt : Bool) (log : List Ev) : Prop where
  none_ : best = none → (∀ i c, Ev.plan i c ∉ log) ∧ nt = true
  some_ : ∀ b j, best = some (b, j) →
    (if nt then (∀ i c, Ev.plan i c ∈ log ↔ i = j ∧ c = none) ∧ (∃ l1 l2, log = l1 ++ Ev.plan j none :: l2 ∧ (∀ i c, Ev.plan i c ∉ l1) ∧ ∀ i c, Ev.plan i c ∉ l2)
     else Ev.plan j (some b.pcost) ∈ log ∧ ∀ i c, Ev.plan i c ∈ log → ∃ x, c = some x ∧ b.pcost ≤ x)

theorem timeLast_append {l1 : List Ev} (h : ∀ i c, Ev.plan i c ∉ l1) (j : ℕ) (c : Int) (l2 : List Ev) :
    timeLast c (l1 ++ Ev.plan j none :: l2) = l1 ++ Ev.plan j (some c) :: l2 := by
  induction l1 with
  | nil => rfl
  | cons e l1 ih =>
    cases e with
    | failed i =>
      simp only [List.cons_append, timeLast]
      rw [ih (fun i c hm => h i c (List.mem_cons_of_mem _ hm))]
    | plan i c => exact absurd (List.mem_cons_self ..) (h i c)

theorem LogOk.min {best : Found} {nt : Bool} {log : List Ev} (h : LogOk best nt log) : LogMin best log := by
  refine ⟨fun hb => (h.none_ hb).1, ?_⟩
  intro b j hb
  have := h.some_ b j hb
  cases nt
  · right; simpa using this
  · left
    simp only [if_true] at this
    exact ⟨(this.1 j none).2 ⟨rfl, rfl⟩, fun i c hm => (this.1 i c).1 hm⟩

theorem consider_log (env : Env) (best : Found) (nt : Bool) (pln : BPlan) (i : ℕ) (st : PSt) (log : List Ev) (h : LogOk best nt log) :
    LogOk (some (consider env best nt pln i st).1) (consider env best nt pln i st).2.1
      (logPlan env best nt pln i st log) := by
  cases best with
  | none =>
    obtain ⟨h1, h2⟩ := h.none_ rfl
    refine ⟨fun h => by simp at h, ?_⟩
    intro b j hb
    simp only [consider, Option.some.injEq, Prod.mk.injEq] at hb
    obtain ⟨rfl, rfl⟩ := hb
    simp only [consider, logPlan, h2, if_true]
    refine ⟨?_, [], log, rfl, by simp, h1⟩
    intro i' c
    simp only [List.mem_cons, Ev.plan.injEq]
    constructor
    · rintro (h | h)
      · exact h
      · exact absurd h (h1 i' c)
    · intro h; exact Or.inl h
  | some x =>
    obtain ⟨b, j⟩ := x
    refine ⟨fun h => by simp at h, ?_⟩
    intro b2 j2 hb
    have hs := h.some_ b j rfl
    have hnt : (consider env (some (b, j)) nt pln i st).2.1 = false := by
      unfold consider; cases nt <;> simp only [Bool.false_eq_true, if_true, if_false] <;> split <;> rfl
    rw [hnt]
    simp only [Bool.false_eq_true, if_false]
    -- the log with the cost of `b` filled in
    have key : ∀ (b' : BPlan) (st1 : PSt) (log' : List Ev), (Ev.plan j (some b'.pcost) ∈ log' ∧ ∀ i c, Ev.plan i c ∈ log' → ∃ x, c = some x ∧ b'.pcost ≤ x) →
        (if (evaluatePlan env pln st1).1.pcost < b'.pcost then ((evaluatePlan env pln st1).1, i) else (b', j)) = (b2, j2) →
        Ev.plan j2 (some b2.pcost) ∈ Ev.plan i (some (evaluatePlan env pln st1).1.pcost) :: log' ∧
          ∀ k c, Ev.plan k c ∈ Ev.plan i (some (evaluatePlan env pln st1).1.pcost) :: log' → ∃ x, c = some x ∧ b2.pcost ≤ x := by
      rintro b' st1 log' ⟨k1, k2⟩ he
      split at he
      · rename_i hlt
        simp only [Prod.mk.injEq] at he
        obtain ⟨rfl, rfl⟩ := he
        refine ⟨List.mem_cons_self .., ?_⟩
        intro k c hm
        rcases List.mem_cons.1 hm with hm | hm
        · simp only [Ev.plan.injEq] at hm
          exact ⟨_, hm.2, le_refl _⟩
        · obtain ⟨x, e1, e2⟩ := k2 k c hm
          exact ⟨x, e1, by omega⟩
      · rename_i hlt
        simp only [Prod.mk.injEq] at he
        obtain ⟨rfl, rfl⟩ := he
        refine ⟨List.mem_cons_of_mem _ k1, ?_⟩
        intro k c hm
        rcases List.mem_cons.1 hm with hm | hm
        · simp only [Ev.plan.injEq] at hm
          exact ⟨_, hm.2, by omega⟩
        · exact k2 k c hm
    cases nt with
    | false =>
      simp only [logPlan, Bool.false_eq_true, if_false] at hs ⊢
      refine key b st log hs ?_
      have := Option.some.inj hb
      rw [← this]
      unfold consider
      simp only [Bool.false_eq_true, if_false]
      split <;> rfl
    | true =>
      simp only [logPlan, if_true] at hs ⊢
      obtain ⟨_, l1, l2, rfl, n1, n2⟩ := hs
      rw [timeLast_append n1]
      refine key (evaluatePlan env b st).1 (evaluatePlan env b st).2 _ ⟨by simp, ?_⟩ ?_
      · intro k c hm
        simp only [List.mem_append, List.mem_cons, Ev.plan.injEq] at hm
        rcases hm with hm | hm | hm
        · exact absurd hm (n1 k c)
        · exact ⟨_, hm.2, le_refl _⟩
        · exact absurd hm (n2 k c)
      · have := Option.some.inj hb
        rw [← this]
        unfold consider
        simp only [if_true]
        split <;> rfl

theorem search0Loop_min {rec : Rec} {env : Env} {p : Problem} {f : FlagsT} (L : List ℕ) : ∀ {best : Found} {nt : Bool} {st : PSt} {log : List Ev} {r : Found} {st' : PSt},
    LogOk best nt log → search0Loop rec env p f L best nt st = .ok (r, st') →
    LogMin r (watch rec env p f L best nt st log) ∨ r = none ∧ st'.timedOut = true ∧ st'.estimatep = false := by
  induction L with
  | nil =>
    intro best nt st log r st' hl h
    simp only [search0Loop, Except.ok.injEq, Prod.mk.injEq] at h
    obtain ⟨rfl, rfl⟩ := h
    exact Or.inl hl.min
  | cons i L ih =>
    intro best nt st log r st' hl h
    rw [search0Loop] at h
    rw [watch]
    cases hd : env.slvdescs[i]? with
    | none => rw [hd] at h; simp at h
    | some d =>
      rw [hd] at h
      simp only at h ⊢
      cases hi : invokeSolver rec env p d.slv f st with
      | error e => rw [hi] at h; simp at h
      | ok x =>
        obtain ⟨pln, st1⟩ := x
        rw [hi] at h
        simp only at h ⊢
        have hlate : (if st1.needCheck then timeoutP env st1 else (false, st1)).1 = true →
            (if st1.needCheck then timeoutP env st1 else (false, st1)).2.timedOut = true ∧ (if st1.needCheck then timeoutP env st1 else (false, st1)).2.estimatep = false := by
          split
          · intro hT
            unfold timeoutP at hT ⊢
            split at hT
            · rename_i he
              rw [if_pos he]
              have he' : st1.estimatep = false := by simpa using he
              split at hT
              · rename_i ht; rw [if_pos ht]; exact ⟨ht, he'⟩
              · rename_i ht
                rw [if_neg ht]
                split at hT
                · rename_i hw; rw [if_pos hw]; exact ⟨rfl, he'⟩
                · simp at hT
            · simp at hT
          · intro hT; simp at hT
        generalize (if st1.needCheck then timeoutP env st1 else (false, st1)) = T at h hlate ⊢
        obtain ⟨late, st2⟩ := T
        simp only at h hlate ⊢
        cases hlt : late with
        | true =>
          rw [if_pos hlt] at h
          simp only [Except.ok.injEq, Prod.mk.injEq] at h
          obtain ⟨rfl, rfl⟩ := h
          exact Or.inr ⟨rfl, hlate hlt⟩
        | false =>
          rw [if_neg (by simp [hlt])] at h
          simp only [Bool.false_eq_true, if_false]
          cases pln with
          | none =>
            simp only at h ⊢
            refine ih ?_ h
            refine ⟨fun hb => ⟨fun i c hm => ?_, (hl.none_ hb).2⟩, ?_⟩
            · rcases List.mem_cons.1 hm with hm | hm
              · simp at hm
              · exact (hl.none_ hb).1 i c hm
            · intro b j hb
              have := hl.some_ b j hb
              cases nt
              · simp only [Bool.false_eq_true, if_false] at this ⊢
                exact ⟨List.mem_cons_of_mem _ this.1, fun i c hm => this.2 i c (by simpa using hm)⟩
              · simp only [if_true] at this ⊢
                obtain ⟨t1, l1, l2, t2, t3, t4⟩ := this
                refine ⟨fun i c => by simpa using t1 i c, Ev.failed _ :: l1, l2, by rw [t2]; rfl, fun i c hm => t3 i c (by simpa using hm), t4⟩
          | some pln =>
            simp only at h ⊢
            have hc := consider_log env best nt pln i st2 log hl
            split at h
            · rename_i hpr
              simp only [Except.ok.injEq, Prod.mk.injEq] at h
              obtain ⟨rfl, rfl⟩ := h
              rw [if_pos hpr]
              exact Or.inl hc.min
            · rename_i hpr
              rw [if_neg hpr]
              exact ih hc h

theorem search0Loop_fail {A : Prop} {rec : Rec} (hr : RecOK A rec) {env : Env} {p : Problem} {f : FlagsT} (hf : LEQ f.l f.u = true) (L : List ℕ) :
    ∀ {best : Found} {nt : Bool} {st0 st : PSt} {st' : PSt}, SKeep st0 st →
    search0Loop rec env p f L best nt st = .ok (none, st') → (best = none ∧ ∀ i ∈ L, CalledAndFailed rec env p f st0 i) ∨ (st'.timedOut = true ∧ st'.estimatep = false) := by
  induction L with
  | nil =>
    intro best nt st0 st st' hk h
    simp only [search0Loop, Except.ok.injEq, Prod.mk.injEq] at h
    exact Or.inl ⟨h.1, by simp⟩
  | cons i L ih =>
    intro best nt st0 st st' hk h
    rw [search0Loop] at h
    cases hd : env.slvdescs[i]? with
    | none => rw [hd] at h; simp at h
    | some d =>
      rw [hd] at h
      simp only at h
      cases hi : invokeSolver rec env p d.slv f st with
      | error e => rw [hi] at h; simp at h
      | ok x =>
        obtain ⟨pln, st1⟩ := x
        rw [hi] at h
        simp only at h
        obtain ⟨k1, k2, k3, _⟩ := invokeSolver_spec (A := False) (fun p st r st' hp h => by
          have := hr p st r st' hp h
          exact ⟨this.keep, this.nthr, this.tli, fun h => h.elim⟩) (fun h => h.elim) (Or.inl hf) hi
        have sk1 : SKeep st st1 := ⟨k2, k3, k1.wst⟩
        have sk2 : SKeep st1 (if st1.needCheck then timeoutP env st1 else (false, st1)).2 := by
          split
          · obtain ⟨_, t2, t3, t4, _⟩ := timeoutP_spec env st1
            exact ⟨t2, t3, Or.inl t4⟩
          · exact SKeep.refl _
        have hlate : (if st1.needCheck then timeoutP env st1 else (false, st1)).1 = true →
            (if st1.needCheck then timeoutP env st1 else (false, st1)).2.timedOut = true ∧ (if st1.needCheck then timeoutP env st1 else (false, st1)).2.estimatep = false := by
          split
          · intro hT
            unfold timeoutP at hT ⊢
            split at hT
            · rename_i he
              rw [if_pos he]
              have he' : st1.estimatep = false := by simpa using he
              split at hT
              · rename_i ht; rw [if_pos ht]; exact ⟨ht, he'⟩
              · rename_i ht
                rw [if_neg ht]
                split at hT
                · rename_i hw; rw [if_pos hw]; exact ⟨rfl, he'⟩
                · simp at hT
            · simp at hT
          · intro hT; simp at hT
        generalize (if st1.needCheck then timeoutP env st1 else (false, st1)) = T at h hlate sk2
        obtain ⟨late, st2⟩ := T
        simp only at h hlate sk2
        split at h
        · rename_i hlt
          simp only [Except.ok.injEq, Prod.mk.injEq] at h
          obtain ⟨_, rfl⟩ := h
          exact Or.inr (hlate hlt)
        · cases pln with
          | none =>
            simp only at h
            rcases ih ((hk.trans sk1).trans sk2) h with ⟨i1, i2⟩ | i1
            · refine Or.inl ⟨i1, ?_⟩
              intro k hm
              rcases List.mem_cons.1 hm with rfl | hm
              · exact ⟨d, st, st1, hd, hk, hi⟩
              · exact i2 k hm
            · exact Or.inr i1
          | some pln =>
            simp only at h
            split at h
            · simp at h
            · obtain ⟨c1, c2, c3, c4, _, _⟩ := consider_spec env best nt pln i st2
              rcases ih (((hk.trans sk1).trans sk2).trans (⟨c2, c3, Or.inl c4⟩ : SKeep _ (consider env best nt pln i st2).2.2)) h with ⟨i1, _⟩ | i1
              · simp at i1
              · exact Or.inr i1

/-- a failed `search0`: timed out, or every solver of the kind was called and failed -/
theorem search0_fail {A : Prop} {rec : Rec} (hr : RecOK A rec) {env : Env} {p : Problem} {f : FlagsT} (hf : LEQ f.l f.u = true) {st0 st st' : PSt} (hk : SKeep st0 st)
    (h : search0 rec env p f st = .ok (none, st')) :
    (∀ i ∈ solversOfKind env (kindOf p), CalledAndFailed rec env p f st0 i) ∨ (st'.timedOut = true ∧ st'.estimatep = false) := by
  unfold search0 at h
  simp only at h
  obtain ⟨_, t2, t3, t4, _⟩ := timeoutP_spec env st
  have sk : SKeep st (timeoutP env st).2 := ⟨t2, t3, Or.inl t4⟩
  split at h
  · rename_i hT
    simp only [Except.ok.injEq, Prod.mk.injEq] at h
    obtain ⟨_, rfl⟩ := h
    right
    unfold timeoutP at hT ⊢
    split at hT
    · rename_i he
      rw [if_pos he]
      have he' : st.estimatep = false := by simpa using he
      split at hT
      · rename_i ht; rw [if_pos ht]; exact ⟨ht, he'⟩
      · rename_i ht
        rw [if_neg ht]
        split at hT
        · rename_i hw; rw [if_pos hw]; exact ⟨rfl, he'⟩
        · simp at hT
    · simp at hT
  · rcases search0Loop_fail hr hf _ (hk.trans sk) h with ⟨_, h⟩ | h
    · exact Or.inl h
    · exact Or.inr h

theorem search0_timedOut {rec : Rec} {env : Env} {p : Problem} {f : FlagsT} {st : PSt} (h1 : st.timedOut = true) (h2 : st.estimatep = false) :
    search0 rec env p f st = .ok (none, st) := by
  unfold search0 timeoutP
  simp [h1, h2]

theorem searchLoop_fail {A : Prop} {rec : Rec} (hr : RecOK A rec) {env : Env} {p : Problem} {lorig : BitVec 20} {st0 : PSt} {u : BitVec 20} (R : List (BitVec 20)) :
    ∀ {x : BitVec 20} {lastX : Option (BitVec 20)} {f : FlagsT} {st : PSt} {f' : FlagsT} {lastX' : Option (BitVec 20)} {st' : PSt},
    f.u = u → LEQ x u = true → SKeep st0 st →
    ((st.timedOut = true ∧ st.estimatep = false) ∨ ∀ y, lastX = some y → ∀ i ∈ solversOfKind env (kindOf p), ∃ g : FlagsT, g.l = y ∧ g.u = u ∧ CalledAndFailed rec env p g st0 i) →
    searchLoop rec env p lorig R x lastX f st = .ok (none, f', lastX', st') →
    f'.u = u ∧ SKeep st0 st' ∧ ((st'.timedOut = true ∧ st'.estimatep = false) ∨
      ∀ y, lastX' = some y → ∀ i ∈ solversOfKind env (kindOf p), ∃ g : FlagsT, g.l = y ∧ g.u = u ∧ CalledAndFailed rec env p g st0 i) := by
  induction R with
  | nil =>
    intro x lastX f st f' lastX' st' hu hx hk hh h
    simp only [searchLoop, Except.ok.injEq, Prod.mk.injEq] at h
    obtain ⟨_, rfl, rfl, rfl⟩ := h
    exact ⟨hu, hk, hh⟩
  | cons q R ih =>
    intro x lastX f st f' lastX' st' hu hx hk hh h
    rw [searchLoop] at h
    simp only at h
    have hx2 : LEQ (if LEQ lorig (x &&& ~~~ q) then x &&& ~~~ q else x) u = true := by
      split
      · exact LEQ_and_not hx
      · exact hx
    generalize (if LEQ lorig (x &&& ~~~ q) then x &&& ~~~ q else x) = y at h hx2
    split at h
    · cases hs : search0 rec env p { f with l := y } st with
      | error e => rw [hs] at h; simp at h
      | ok z =>
        obtain ⟨b, st1⟩ := z
        rw [hs] at h
        cases b with
        | some b => simp at h
        | none =>
          simp only at h
          have hsk : SKeep st st1 := by
            have hr' : RecOK False rec := fun p st r st' hp h => by
              have := hr p st r st' hp h
              exact ⟨this.keep, this.nthr, this.tli, fun h => h.elim⟩
            exact (search0_spec hr' (env := env) (fun h => h.elim) (f := { f with l := y }) (by simp only; rw [hu]; exact hx2) hs).1
          refine ih (f := { f with l := y }) hu hx2 (hk.trans hsk) ?_ h
          rcases search0_fail hr (f := { f with l := y }) (by simp only; rw [hu]; exact hx2) hk hs with h' | h'
          · right
            intro y' hy' i hi
            obtain rfl := Option.some.inj hy'
            exact ⟨{ f with l := y }, rfl, hu, h' i hi⟩
          · exact Or.inl h'
    · exact ih hu hx2 hk hh h

theorem search_fail {A : Prop} {rec : Rec} (hr : RecOK A rec) {env : Env} {p : Problem} {f f' : FlagsT} (hf : LEQ f.l f.u = true) {st st' : PSt}
    (h : search rec env p f st = .ok (none, f', st')) (ht : st'.timedOut = false) :
    ∀ i ∈ solversOfKind env (kindOf p), ∃ g : FlagsT, g.l = f.l ∧ g.u = f.u ∧ CalledAndFailed rec env p g st i := by
  unfold search at h
  simp only [bind, Except.bind] at h
  cases hs : searchLoop rec env p f.l relaxTab f.u none f st with
  | error e => rw [hs] at h; simp at h
  | ok z =>
    obtain ⟨b, f1, lastX, st1⟩ := z
    rw [hs] at h
    cases b with
    | some b => simp [pure, Except.pure] at h
    | none =>
      simp only at h
      obtain ⟨s0, s1, s2⟩ := searchLoop_fail hr (st0 := st) (u := f.u) relaxTab rfl (search_spec.LEQ_refl' _) (SKeep.refl _) (Or.inr (by simp)) hs
      split at h
      · cases hs2 : search0 rec env p { f1 with l := f.l } st1 with
        | error e => rw [hs2] at h; simp at h
        | ok z =>
          obtain ⟨b, st2⟩ := z
          rw [hs2] at h
          simp only [pure, Except.pure, Except.ok.injEq, Prod.mk.injEq] at h
          obtain ⟨rfl, rfl, rfl⟩ := h
          rcases search0_fail hr (f := { f1 with l := f.l }) (by simp only; rw [s0]; exact hf) s1 hs2 with h' | h'
          · exact fun i hi => ⟨{ f1 with l := f.l }, rfl, s0, h' i hi⟩
          · rw [ht] at h'; simp at h'
      · rename_i hx
        simp only [pure, Except.pure, Except.ok.injEq, Prod.mk.injEq] at h
        obtain ⟨_, rfl, rfl⟩ := h
        rcases s2 with s2 | s2
        · rw [ht] at s2; simp at s2
        · exact s2 f.l (by simpa using hx)

end FFTW.Planner
