import Verif.Model.Refcount
import Mathlib.Tactic.Common
import Mathlib.Data.BitVec

/-!
# C27: plans live until their last handle is destroyed
-/

namespace FFTW.Refcount

/-- the number of handles of plan `a` the program holds after a history (latest call first): creation yields one, each copy one more,
each destruction consumes one -/
def live : List Op → Addr → ℕ
  | [], _ => 0
  | .create a _ _ :: l, b => if b = a then 1 else live l b
  | .copy a :: l, b => if b = a then live l b + 1 else live l b
  | .destroy a :: l, b => if b = a then live l b - 1 else live l b
  | _ :: l, b => live l b

/-- histories (latest call first) of a program that uses only handles it holds, and never holds more than 2^64 handles of the same plan;
new objects are at addresses not in use -/
inductive Legal : List Op → Option Heap → Prop
  | start : Legal [] (some ⟨fun _ => none, fun _ => none, fun _ => false, []⟩)
  | create {l : List Op} {h : Heap} (a pl pr : Addr) : Legal l (some h) → h.apis a = none → h.plans pl = none → h.probs pr = false →
      Legal (.create a pl pr :: l) (step (.create a pl pr) h)
  | copy {l : List Op} {h : Heap} (a : Addr) : Legal l (some h) → 0 < live l a → live l a < 2 ^ 64 → Legal (.copy a :: l) (step (.copy a) h)
  | destroy {l : List Op} {h : Heap} (a : Addr) : Legal l (some h) → 0 < live l a → Legal (.destroy a :: l) (step (.destroy a) h)
  | execute {l : List Op} {h : Heap} (a : Addr) : Legal l (some h) → 0 < live l a → Legal (.execute a :: l) (step (.execute a) h)
  | copyNull {l : List Op} {h : Heap} : Legal l (some h) → Legal (.copyNull :: l) (step .copyNull h)
  | destroyNull {l : List Op} {h : Heap} : Legal l (some h) → Legal (.destroyNull :: l) (step .destroyNull h)

/-- how often the history created a plan at address `a` -/
def creations (l : List Op) (a : Addr) : ℕ := l.countP fun op => match op with
  | .create b _ _ => b == a
  | _ => false

/-- the invariant of all histories -/
structure Inv (l : List Op) (h : Heap) : Prop where
  obj : ∀ a, (h.apis a).isSome ↔ 0 < live l a
  cnt : ∀ a o, h.apis a = some o → o.refcount = BitVec.ofNat 64 (live l a) ∧ live l a ≤ 2 ^ 64 ∧ h.plans o.pln = some true ∧ h.probs o.prb = true
  own : ∀ a o b o', h.apis a = some o → h.apis b = some o' → o.pln = o'.pln ∨ o.prb = o'.prb → a = b
  pl : ∀ pl, (h.plans pl).isSome → ∃ a o, h.apis a = some o ∧ o.pln = pl
  pr : ∀ pr, h.probs pr = true → ∃ a o, h.apis a = some o ∧ o.prb = pr
  freed : ∀ a, h.log.count (.freeApi a) + (if (h.apis a).isSome then 1 else 0) = creations l a

theorem create_eq (a pl pr : Addr) (h : Heap) : create a pl pr h = some ⟨Function.update h.apis a (some ⟨pl, pr, 1⟩), Function.update h.plans pl (some true),
    Function.update h.probs pr true, .awakePlan pl :: h.log⟩ := by
  simp [create, planAwake]

theorem destroy_last {a : Addr} {h : Heap} {o : Obj} (ha : h.apis a = some o) (h1 : o.refcount = 1) (hp : h.plans o.pln = some true) (hq : h.probs o.prb = true) :
    destroy a h = some ⟨Function.update h.apis a none, Function.update h.plans o.pln none, Function.update h.probs o.prb false,
      .freeApi a :: .destroyProblem o.prb :: .destroyPlan o.pln :: .sleepPlan o.pln :: h.log⟩ := by
  simp [destroy, ha, h1, planAwake, hp, planDestroy, problemDestroy, hq, freeApi]

theorem destroy_more {a : Addr} {h : Heap} {o : Obj} (ha : h.apis a = some o) (h1 : o.refcount ≠ 1) :
    destroy a h = some { h with apis := Function.update h.apis a (some { o with refcount := o.refcount - 1 }) } := by
  unfold destroy
  rw [ha]
  exact if_neg h1

theorem ofNat_one {n : ℕ} (h0 : 0 < n) (h : n ≤ 2 ^ 64) : BitVec.ofNat 64 n = 1#64 ↔ n = 1 := by
  constructor
  · intro he
    have := congrArg BitVec.toNat he
    simp only [BitVec.toNat_ofNat] at this
    omega
  · rintro rfl; rfl

/-- the invariant holds along every legal history, which therefore never uses freed memory or fails an assertion -/
theorem inv_legal {l : List Op} {r : Option Heap} (hl : Legal l r) : ∃ h, r = some h ∧ Inv l h := by
  induction hl with
  | start => exact ⟨_, rfl, by simp [live], by simp, by simp, by simp, by simp, by simp [creations]⟩
  | @create l h a pl pr _ ha hpl hpr ih =>
    obtain ⟨h', he, I⟩ := ih
    obtain rfl := Option.some.inj he
    refine ⟨_, create_eq a pl pr h, ?_, ?_, ?_, ?_, ?_, ?_⟩
    · intro b
      by_cases hb : b = a
      · subst hb; simp [live]
      · simp [live, hb, I.obj b]
    · intro b o ho
      by_cases hb : b = a
      · subst hb
        simp only [Function.update_self, Option.some.injEq] at ho
        subst ho
        simp [live]
      · simp only [Function.update_of_ne hb] at ho
        obtain ⟨h1, h2, h3, h4⟩ := I.cnt b o ho
        refine ⟨by simp [live, hb, h1], by simpa [live, hb] using h2, ?_, ?_⟩
        · have : o.pln ≠ pl := by rintro rfl; rw [hpl] at h3; simp at h3
          simp [Function.update_of_ne this, h3]
        · have : o.prb ≠ pr := by rintro rfl; rw [hpr] at h4; simp at h4
          simp [Function.update_of_ne this, h4]
    · intro b o c o' ho ho' hoo
      have key : ∀ d x, d ≠ a → h.apis d = some x → x.pln ≠ pl ∧ x.prb ≠ pr := by
        intro d x _ hx
        obtain ⟨-, -, h3, h4⟩ := I.cnt d x hx
        exact ⟨by rintro rfl; rw [hpl] at h3; simp at h3, by rintro rfl; rw [hpr] at h4; simp at h4⟩
      by_cases hb : b = a <;> by_cases hc : c = a
      · rw [hb, hc]
      · subst hb
        simp only [Function.update_self, Option.some.injEq, Function.update_of_ne hc] at ho ho'
        subst ho
        have := key c o' hc ho'
        rcases hoo with h | h
        · exact absurd h.symm this.1
        · exact absurd h.symm this.2
      · subst hc
        simp only [Function.update_self, Option.some.injEq, Function.update_of_ne hb] at ho ho'
        subst ho'
        have := key b o hb ho
        rcases hoo with h | h
        · exact absurd h this.1
        · exact absurd h this.2
      · simp only [Function.update_of_ne hc, Function.update_of_ne hb] at ho ho'
        exact I.own b o c o' ho ho' hoo
    · intro q hq
      by_cases hqp : q = pl
      · subst hqp; exact ⟨a, ⟨_, _, 1⟩, Function.update_self .., rfl⟩
      · simp only [Function.update_of_ne hqp] at hq
        obtain ⟨b, o, hb, ho⟩ := I.pl q hq
        refine ⟨b, o, ?_, ho⟩
        show Function.update h.apis _ _ _ = _
        rw [Function.update_of_ne (by rintro rfl; rw [ha] at hb; simp at hb)]; exact hb
    · intro q hq
      by_cases hqp : q = pr
      · subst hqp; exact ⟨a, ⟨_, _, 1⟩, Function.update_self .., rfl⟩
      · simp only [Function.update_of_ne hqp] at hq
        obtain ⟨b, o, hb, ho⟩ := I.pr q hq
        refine ⟨b, o, ?_, ho⟩
        show Function.update h.apis _ _ _ = _
        rw [Function.update_of_ne (by rintro rfl; rw [ha] at hb; simp at hb)]; exact hb
    · intro b
      have := I.freed b
      by_cases hb : b = a
      · subst hb
        rw [ha] at this
        simp only [Function.update_self, List.count_cons, creations, List.countP_cons] at this ⊢
        simp at this ⊢
        omega
      · simp only [Function.update_of_ne hb, creations, List.countP_cons, List.count_cons] at this ⊢
        have hab : (a == b) = false := by simpa using Ne.symm hb
        simpa [hab] using this
  | @copy l h a _ h0 hm ih =>
    obtain ⟨h', he, I⟩ := ih
    obtain rfl := Option.some.inj he
    obtain ⟨o, ho⟩ := Option.isSome_iff_exists.1 ((I.obj a).2 h0)
    refine ⟨{ h with apis := Function.update h.apis a (some { o with refcount := o.refcount + 1 }) }, show copy a h = _ by simp [copy, ho], ?_, ?_, ?_, ?_, ?_, ?_⟩
    · intro b
      by_cases hb : b = a
      · subst hb; simp [live]
      · simp [live, hb, I.obj b]
    · intro b x hx
      by_cases hb : b = a
      · subst hb
        simp only [Function.update_self, Option.some.injEq] at hx
        subst hx
        obtain ⟨h1, h2, h3, h4⟩ := I.cnt b o ho
        refine ⟨?_, by simp [live]; omega, h3, h4⟩
        simp [live, h1, BitVec.ofNat_add]
      · simp only [Function.update_of_ne hb] at hx
        simpa [live, hb] using I.cnt b x hx
    · intro b x c x' hx hx' hxx
      by_cases hb : b = a <;> by_cases hc : c = a
      · rw [hb, hc]
      · subst hb
        simp only [Function.update_self, Option.some.injEq, Function.update_of_ne hc] at hx hx'
        subst hx
        exact I.own b o c x' ho hx' hxx
      · subst hc
        simp only [Function.update_self, Option.some.injEq, Function.update_of_ne hb] at hx hx'
        subst hx'
        exact I.own b x c o hx ho hxx
      · simp only [Function.update_of_ne hc, Function.update_of_ne hb] at hx hx'
        exact I.own b x c x' hx hx' hxx
    · intro q hq
      obtain ⟨b, x, hb, hx⟩ := I.pl q hq
      by_cases hba : b = a
      · subst hba
        obtain rfl := Option.some.inj (ho.symm.trans hb)
        exact ⟨b, _, Function.update_self .., hx⟩
      · exact ⟨b, x, by simpa [Function.update_of_ne hba] using hb, hx⟩
    · intro q hq
      obtain ⟨b, x, hb, hx⟩ := I.pr q hq
      by_cases hba : b = a
      · subst hba
        obtain rfl := Option.some.inj (ho.symm.trans hb)
        exact ⟨b, _, Function.update_self .., hx⟩
      · exact ⟨b, x, by simpa [Function.update_of_ne hba] using hb, hx⟩
    · intro b
      have := I.freed b
      by_cases hb : b = a
      · subst hb
        rw [ho] at this
        simpa [creations] using this
      · simpa [Function.update_of_ne hb, creations] using this
  | @destroy l h a _ h0 ih =>
    obtain ⟨h', he, I⟩ := ih
    obtain rfl := Option.some.inj he
    obtain ⟨o, ho⟩ := Option.isSome_iff_exists.1 ((I.obj a).2 h0)
    obtain ⟨h1, h2, h3, h4⟩ := I.cnt a o ho
    by_cases hlast : live l a = 1
    · rw [hlast] at h1
      refine ⟨_, destroy_last ho h1 h3 h4, ?_, ?_, ?_, ?_, ?_, ?_⟩
      · intro b
        by_cases hb : b = a
        · subst hb; simp [live, hlast]
        · simp [live, hb, I.obj b]
      · intro b x hx
        by_cases hb : b = a
        · subst hb; simp at hx
        · simp only [Function.update_of_ne hb] at hx
          obtain ⟨g1, g2, g3, g4⟩ := I.cnt b x hx
          refine ⟨by simp [live, hb, g1], by simpa [live, hb] using g2, ?_, ?_⟩
          · show Function.update h.plans _ _ _ = _
            rw [Function.update_of_ne fun h => hb (I.own b x a o hx ho (Or.inl h))]; exact g3
          · show Function.update h.probs _ _ _ = _
            rw [Function.update_of_ne fun h => hb (I.own b x a o hx ho (Or.inr h))]; exact g4
      · intro b x c x' hx hx' hxx
        by_cases hb : b = a
        · subst hb; simp at hx
        by_cases hc : c = a
        · subst hc; simp at hx'
        simp only [Function.update_of_ne hc, Function.update_of_ne hb] at hx hx'
        exact I.own b x c x' hx hx' hxx
      · intro q hq
        by_cases hqp : q = o.pln
        · subst hqp; simp at hq
        · simp only [Function.update_of_ne hqp] at hq
          obtain ⟨b, x, hb, hx⟩ := I.pl q hq
          refine ⟨b, x, ?_, hx⟩
          show Function.update h.apis _ _ _ = _
          rw [Function.update_of_ne (by rintro rfl; rw [ho] at hb; exact hqp (hx.symm.trans (Option.some.inj hb ▸ rfl)))]; exact hb
      · intro q hq
        by_cases hqp : q = o.prb
        · subst hqp; simp at hq
        · simp only [Function.update_of_ne hqp] at hq
          obtain ⟨b, x, hb, hx⟩ := I.pr q hq
          refine ⟨b, x, ?_, hx⟩
          show Function.update h.apis _ _ _ = _
          rw [Function.update_of_ne (by rintro rfl; rw [ho] at hb; exact hqp (hx.symm.trans (Option.some.inj hb ▸ rfl)))]; exact hb
      · intro b
        have := I.freed b
        by_cases hb : b = a
        · subst hb
          rw [ho] at this
          simpa [creations, List.count_cons] using this
        · simpa [Function.update_of_ne hb, creations, List.count_cons, Ne.symm hb] using this
    · have hne : o.refcount ≠ 1 := by
        rw [h1]; exact fun h => hlast ((ofNat_one h0 h2).1 h)
      refine ⟨_, destroy_more ho hne, ?_, ?_, ?_, ?_, ?_, ?_⟩
      · intro b
        by_cases hb : b = a
        · subst hb; simp [live]; omega
        · simp [live, hb, I.obj b]
      · intro b x hx
        by_cases hb : b = a
        · subst hb
          simp only [Function.update_self, Option.some.injEq] at hx
          subst hx
          refine ⟨?_, by simp [live]; omega, h3, h4⟩
          simp only [live, if_true, h1]
          apply BitVec.eq_of_toNat_eq
          rw [show (1 : BitVec 64) = BitVec.ofNat 64 1 from rfl]
          simp only [BitVec.toNat_sub, BitVec.toNat_ofNat]
          omega
        · simp only [Function.update_of_ne hb] at hx
          simpa [live, hb] using I.cnt b x hx
      · intro b x c x' hx hx' hxx
        by_cases hb : b = a <;> by_cases hc : c = a
        · rw [hb, hc]
        · subst hb
          simp only [Function.update_self, Option.some.injEq, Function.update_of_ne hc] at hx hx'
          subst hx
          exact I.own b o c x' ho hx' hxx
        · subst hc
          simp only [Function.update_self, Option.some.injEq, Function.update_of_ne hb] at hx hx'
          subst hx'
          exact I.own b x c o hx ho hxx
        · simp only [Function.update_of_ne hc, Function.update_of_ne hb] at hx hx'
          exact I.own b x c x' hx hx' hxx
      · intro q hq
        obtain ⟨b, x, hb, hx⟩ := I.pl q hq
        by_cases hba : b = a
        · subst hba
          obtain rfl := Option.some.inj (ho.symm.trans hb)
          exact ⟨b, _, Function.update_self .., hx⟩
        · exact ⟨b, x, by simpa [Function.update_of_ne hba] using hb, hx⟩
      · intro q hq
        obtain ⟨b, x, hb, hx⟩ := I.pr q hq
        by_cases hba : b = a
        · subst hba
          obtain rfl := Option.some.inj (ho.symm.trans hb)
          exact ⟨b, _, Function.update_self .., hx⟩
        · exact ⟨b, x, by simpa [Function.update_of_ne hba] using hb, hx⟩
      · intro b
        have := I.freed b
        by_cases hb : b = a
        · subst hb
          rw [ho] at this
          simpa [creations] using this
        · simpa [Function.update_of_ne hb, creations] using this
  | @execute l h a _ h0 ih =>
    obtain ⟨h', he, I⟩ := ih
    obtain rfl := Option.some.inj he
    obtain ⟨o, ho⟩ := Option.isSome_iff_exists.1 ((I.obj a).2 h0)
    obtain ⟨h1, h2, h3, h4⟩ := I.cnt a o ho
    refine ⟨{ h with log := .run o.pln :: h.log }, show execute a h = _ by simp [execute, ho, h3, h4], I.obj, I.cnt, I.own, I.pl, I.pr, ?_⟩
    intro b
    simpa [creations, List.count_cons] using I.freed b
  | @copyNull l h _ ih =>
    obtain ⟨h', he, I⟩ := ih
    obtain rfl := Option.some.inj he
    exact ⟨h, rfl, I.obj, I.cnt, I.own, I.pl, I.pr, I.freed⟩
  | @destroyNull l h _ ih =>
    obtain ⟨h', he, I⟩ := ih
    obtain rfl := Option.some.inj he
    exact ⟨h, rfl, I.obj, I.cnt, I.own, I.pl, I.pr, I.freed⟩

/-- **C27**: no legal history uses freed memory (or sleeping plans), or releases anything twice: every call succeeds -/
theorem C27_never_dangling {l : List Op} {r : Option Heap} (hl : Legal l r) : r ≠ none := by
  obtain ⟨h, rfl, -⟩ := inv_legal hl
  simp

/-- **C27**: a plan exists exactly as long as the program holds a handle of it; then it is awake, and so is its problem in memory -/
theorem C27_lives_while_held {l : List Op} {h : Heap} (hl : Legal l (some h)) (a : Addr) :
    ((h.apis a).isSome ↔ 0 < live l a) ∧ ∀ o, h.apis a = some o → h.plans o.pln = some true ∧ h.probs o.prb = true := by
  obtain ⟨h', he, I⟩ := inv_legal hl
  obtain rfl := Option.some.inj he
  exact ⟨I.obj a, fun o ho => ⟨(I.cnt a o ho).2.2.1, (I.cnt a o ho).2.2.2⟩⟩

/-- **C27**: everything is released exactly once: the number of releases of plans at address `a` is the number of creations, less one if
the program still holds a handle -/
theorem C27_released_once {l : List Op} {h : Heap} (hl : Legal l (some h)) (a : Addr) :
    h.log.count (.freeApi a) + (if 0 < live l a then 1 else 0) = creations l a := by
  obtain ⟨h', he, I⟩ := inv_legal hl
  obtain rfl := Option.some.inj he
  rw [← I.freed a]
  simp only [I.obj a]

/-- **C27**: `destroy_plan` of the last handle puts the plan to sleep, destroys the plan, then the problem, then frees the handle's object; of any
other handle, it releases nothing -/
theorem C27_release_at_last_destroy {l : List Op} {h h' : Heap} (hl : Legal l (some h)) (a : Addr) (h0 : 0 < live l a) (hs : step (.destroy a) h = some h') :
    (live l a = 1 → ∃ o, h.apis a = some o ∧ h'.log = .freeApi a :: .destroyProblem o.prb :: .destroyPlan o.pln :: .sleepPlan o.pln :: h.log ∧
      h'.apis a = none ∧ h'.plans o.pln = none ∧ h'.probs o.prb = false) ∧
    (live l a ≠ 1 → h'.log = h.log ∧ h'.plans = h.plans ∧ h'.probs = h.probs) := by
  obtain ⟨g, he, I⟩ := inv_legal hl
  obtain rfl := Option.some.inj he
  obtain ⟨o, ho⟩ := Option.isSome_iff_exists.1 ((I.obj a).2 h0)
  obtain ⟨h1, h2, h3, h4⟩ := I.cnt a o ho
  refine ⟨fun h5 => ?_, fun h5 => ?_⟩
  · rw [h5] at h1
    obtain rfl := Option.some.inj ((destroy_last ho h1 h3 h4).symm.trans hs)
    exact ⟨o, ho, rfl, by simp, by simp, by simp⟩
  · have hne : o.refcount ≠ 1 := by
      rw [h1]; exact fun h => h5 ((ofNat_one h0 h2).1 h)
    obtain rfl := Option.some.inj ((destroy_more ho hne).symm.trans hs)
    exact ⟨rfl, rfl, rfl⟩

/-- **C27**: nothing leaks: when the program holds no handles, no plan, problem or handle object is left -/
theorem C27_no_leak {l : List Op} {h : Heap} (hl : Legal l (some h)) (h0 : ∀ a, live l a = 0) :
    (∀ a, h.apis a = none) ∧ (∀ p, h.plans p = none) ∧ ∀ p, h.probs p = false := by
  obtain ⟨g, he, I⟩ := inv_legal hl
  obtain rfl := Option.some.inj he
  have ha : ∀ a, h.apis a = none := fun a => by
    rw [← Option.not_isSome_iff_eq_none, I.obj a, h0 a]; simp
  refine ⟨ha, fun p => ?_, fun p => ?_⟩
  · rw [← Option.not_isSome_iff_eq_none]
    intro hp
    obtain ⟨a, o, h1, -⟩ := I.pl p hp
    rw [ha a] at h1; simp at h1
  · rw [← Bool.not_eq_true]
    intro hp
    obtain ⟨a, o, h1, -⟩ := I.pr p hp
    rw [ha a] at h1; simp at h1

/-- copying `k` times -/
theorem copies (k : ℕ) {h : Heap} {a : Addr} {o : Obj} (ho : h.apis a = some o) :
    ∃ h', (List.replicate k (Op.copy a)).foldlM (fun h op => step op h) h = some h' ∧
      h' = { h with apis := Function.update h.apis a (some { o with refcount := o.refcount + BitVec.ofNat 64 k }) } := by
  induction k generalizing h o with
  | zero =>
    refine ⟨h, rfl, ?_⟩
    have : Function.update h.apis a (some { o with refcount := o.refcount + BitVec.ofNat 64 0 }) = h.apis := by
      funext b
      by_cases hb : b = a
      · subst hb; simp [ho]
      · simp [hb]
    rw [this]
  | succ k ih =>
    obtain ⟨h', h1, h2⟩ := ih (h := { h with apis := Function.update h.apis a (some { o with refcount := o.refcount + 1 }) }) (o := { o with refcount := o.refcount + 1 }) (by simp)
    refine ⟨h', ?_, ?_⟩
    · rw [List.replicate_succ, List.foldlM_cons]
      show (copy a h >>= _) = _
      rw [show copy a h = some { h with apis := Function.update h.apis a (some { o with refcount := o.refcount + 1 }) } by simp [copy, ho]]
      exact h1
    · rw [h2]
      simp only [Function.update_idem]
      congr 3
      simp only [Obj.mk.injEq, true_and]
      rw [BitVec.add_assoc]
      congr 1
      apply BitVec.eq_of_toNat_eq
      simp [BitVec.toNat_add]
      omega

/-- the bound on the number of handles cannot be dropped: with 2^64 copies (2^64 + 1 handles) destroying one handle releases the plan, with
2^64 handles still held.  (The counter is a `size_t`; the program has no test for overflow.) -/
theorem C27_bound_is_sharp (a pl pr : Addr) : ∃ h1 h2 h3,
    create a pl pr ⟨fun _ => none, fun _ => none, fun _ => false, []⟩ = some h1 ∧
    (List.replicate (2 ^ 64) (Op.copy a)).foldlM (fun h op => step op h) h1 = some h2 ∧
    destroy a h2 = some h3 ∧ h3.apis a = none ∧ h3.plans pl = none := by
  obtain ⟨h2, e1, e2⟩ := copies (2 ^ 64) (h := ⟨Function.update (fun _ => none) a (some ⟨pl, pr, 1⟩), Function.update (fun _ => none) pl (some true),
    Function.update (fun _ => false) pr true, [.awakePlan pl]⟩) (a := a) (o := ⟨pl, pr, 1⟩) (by simp)
  have := destroy_last (a := a) (h := h2) (o := ⟨pl, pr, 1⟩) (by rw [e2]; simp) rfl (by rw [e2]; simp) (by rw [e2]; simp)
  exact ⟨_, h2, _, create_eq _ _ _ _, e1, this, by simp, by simp⟩

/-- two plans, one copied and destroyed twice, the other kept: a legal history -/
example : ∃ h, Legal [.destroy 1, .execute 1, .destroy 1, .create 2 20 21, .copy 1, .create 1 10 11] (some h) ∧
    live [.destroy 1, .execute 1, .destroy 1, .create 2 20 21, .copy 1, .create 1 10 11] 1 = 0 ∧ live [.destroy 1, .execute 1, .destroy 1, .create 2 20 21, .copy 1, .create 1 10 11] 2 = 1 := by
  refine ⟨_, .destroy 1 (.execute 1 (.destroy 1 (.create 2 20 21 (.copy 1 (.create 1 10 11 .start rfl rfl rfl) ?_ ?_) ?_ ?_ ?_) ?_) ?_) ?_, ?_, ?_⟩ <;> first | rfl | decide

end FFTW.Refcount
