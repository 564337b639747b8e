import Verif.Model.Twiddle
import Verif.Props.Trig
import Mathlib.Data.Finset.Card

/-!
# C15: shared twiddle tables
-/

namespace FFTW.Twiddle

/-- who is awake, with which request, after a history (later calls first) -/
def awake : List Call → ℕ → Option Req
  | [], _ => none
  | .wake pl x :: h, p => if p = pl then some x else awake h p
  | .sleep pl :: h, p => if p = pl then none else awake h p

/-- a plan is put to sleep only if awake, woken only if asleep (kernel/plan.c:64 asserts it), and `vl > 0` -/
def Legal : List Call → Prop
  | [] => True
  | .wake pl x :: h => Legal h ∧ awake h pl = none ∧ 0 < x.q.vl
  | .sleep pl :: h => Legal h ∧ awake h pl ≠ none

/-! ### proofs -/

variable (cx : Wake → ℕ → ℤ → ℝ × ℝ)

theorem equalInstrs_emit {p q : List Instr} (h : equalInstrs p q = true) (c : ℕ → ℤ → ℝ × ℝ) (n r : ℕ) (j : ℤ) :
    p.flatMap (emit c n r j) = q.flatMap (emit c n r j) := by
  induction p generalizing q with
  | nil =>
    cases q with
    | nil => rfl
    | cons => simp [equalInstrs] at h
  | cons a p ih =>
    cases q with
    | nil => simp [equalInstrs] at h
    | cons b q =>
      rw [equalInstrs] at h
      obtain ⟨o, v, i⟩ := a
      obtain ⟨o', v', i'⟩ := b
      simp only at h
      split at h
      · simp at h
      rename_i ho
      push Not at ho
      subst ho
      simp only [List.flatMap_cons]
      cases o <;> simp only at h <;> split at h <;> first
        | (simp at h; done)
        | skip
      all_goals
        rename_i hv
        push Not at hv
        rw [ih h]
        congr 1
      · rw [hv.1, hv.2]
      · rw [hv.1, hv.2]
      · rw [hv.1, hv.2]
      · subst hv; rfl
      · subst hv; rfl

theorem flatMap_range_prefix (f : ℕ → List ℝ) {a b : ℕ} (h : a ≤ b) : (List.range a).flatMap f <+: (List.range b).flatMap f := by
  obtain ⟨c, rfl⟩ := Nat.exists_eq_add_of_le h
  rw [List.range_add, List.flatMap_append]
  exact List.prefix_append _ _

/-- a table found in the cache starts with what the plan asks for -/
theorem compute_prefix {c : ℕ → ℤ → ℝ × ℝ} {p q : Prog} (h : equalInstr p q = true) (n r : ℕ) {m m' : ℕ} (hm : m ≤ m') :
    compute c q n r m <+: compute c p n r m' := by
  unfold equalInstr at h
  simp only [Bool.and_eq_true, decide_eq_true_eq] at h
  unfold compute
  have e : ∀ jj : ℕ, (p.is.flatMap fun x => emit c n r ((jj * p.vl : ℕ) : ℤ) x) = q.is.flatMap fun x => emit c n r ((jj * q.vl : ℕ) : ℤ) x := by
    intro jj
    rw [h.2]
    exact equalInstrs_emit h.1 c n r _
  rw [funext e, h.2]
  exact flatMap_range_prefix _ (Nat.div_le_div_right (by omega))

/-- invariant -/
structure Inv (h : List Call) (st : St) : Prop where
  hold : ∀ p x, awake h p = some x → ∃ a t, st.td p = some a ∧ st.heap a = some t ∧ compute (cx x.w) x.q x.n x.r x.m <+: t.W
  tab : ∀ a t, st.heap a = some t → a < st.next ∧ t.W = compute (cx t.w) t.instr t.n t.r t.m ∧ a ∈ st.twlist (hash t.n t.r)
  cnt : ∀ a t, st.heap a = some t → ∃ S : Finset ℕ, (∀ p, p ∈ S ↔ awake h p ≠ none ∧ st.td p = some a) ∧ (S.card : ℤ) = t.refcnt ∧ S.Nonempty
  list : ∀ b, (st.twlist b).Nodup ∧ ∀ a ∈ st.twlist b, ∃ t, st.heap a = some t ∧ hash t.n t.r = b

theorem lookupLoop_ok {heap : ℕ → Option Twid} {x : Req} {l : List ℕ} (hl : ∀ a ∈ l, ∃ t, heap a = some t) :
    ∃ r, lookupLoop heap x l = some r ∧ ∀ a, r = some a → a ∈ l ∧ ∃ t, heap a = some t ∧ okTwid t x = true := by
  induction l with
  | nil => exact ⟨none, rfl, by simp⟩
  | cons a l ih =>
    obtain ⟨t, ht⟩ := hl a (List.mem_cons_self ..)
    rw [lookupLoop, ht]
    simp only
    by_cases hok : okTwid t x = true
    · rw [if_pos hok]
      refine ⟨some a, rfl, ?_⟩
      intro b hb
      obtain rfl := Option.some.inj hb
      exact ⟨List.mem_cons_self .., t, ht, hok⟩
    · rw [if_neg hok]
      obtain ⟨r, h1, h2⟩ := ih (fun b hb => hl b (List.mem_cons_of_mem _ hb))
      exact ⟨r, h1, fun b hb => ⟨List.mem_cons_of_mem _ (h2 b hb).1, (h2 b hb).2⟩⟩

theorem unlink_eq {a : ℕ} {l : List ℕ} (h : a ∈ l) : unlink a l = some (l.erase a) := by
  induction l with
  | nil => simp at h
  | cons b l ih =>
    rw [unlink]
    by_cases hb : b = a
    · rw [if_pos hb, hb]; simp
    · rw [if_neg hb, List.erase_cons_tail (by simpa using hb), ih (by
        rcases List.mem_cons.1 h with h | h
        · exact absurd h.symm hb
        · exact h)]
      rfl

theorem wake_inv {h : List Call} {st : St} (hi : Inv cx h st) (pl : ℕ) (x : Req) (ha : awake h pl = none) :
    ∃ st', mktwiddle cx st pl x = some st' ∧ Inv cx (.wake pl x :: h) st' := by
  obtain ⟨r, h1, h2⟩ := lookupLoop_ok (heap := st.heap) (x := x) (l := st.twlist (hash x.n x.r))
    (fun a ha => (hi.list _).2 a ha |>.imp fun t ht => ht.1)
  unfold mktwiddle
  rw [h1]
  cases r with
  | some a =>
    obtain ⟨ham, t, ht, hok⟩ := h2 a rfl
    simp only [ht]
    refine ⟨_, rfl, ?_, ?_, ?_, ?_⟩
    · intro p y hy
      rw [awake] at hy
      by_cases hp : p = pl
      · subst hp
        rw [if_pos rfl] at hy
        obtain rfl := Option.some.inj hy
        refine ⟨a, { t with refcnt := t.refcnt + 1 }, by simp, by simp, ?_⟩
        unfold okTwid at hok
        simp only [Bool.and_eq_true, decide_eq_true_eq] at hok
        obtain ⟨⟨⟨⟨o1, o2⟩, o3⟩, o4⟩, o5⟩ := hok
        simp only
        rw [(hi.tab a t ht).2.1, ← o1, ← o2, ← o3]
        exact compute_prefix o5 _ _ o4
      · rw [if_neg hp] at hy
        obtain ⟨b, t', k1, k2, k3⟩ := hi.hold p y hy
        by_cases hb : b = a
        · subst hb
          rw [ht] at k2
          obtain rfl := Option.some.inj k2
          exact ⟨b, { t with refcnt := t.refcnt + 1 }, by simp [Function.update_of_ne hp, k1], by simp, k3⟩
        · exact ⟨b, t', by simp [Function.update_of_ne hp, k1], by simp [Function.update_of_ne hb, k2], k3⟩
    · intro b t' hb
      by_cases hba : b = a
      · subst hba
        simp only [Function.update_self, Option.some.injEq] at hb
        subst hb
        exact hi.tab b t ht
      · simp only [Function.update_of_ne hba] at hb
        exact hi.tab b t' hb
    · intro b t' hb
      by_cases hba : b = a
      · subst hba
        simp only [Function.update_self, Option.some.injEq] at hb
        subst hb
        obtain ⟨S, s1, s2, s3⟩ := hi.cnt b t ht
        have hpl : pl ∉ S := fun hh => ((s1 pl).1 hh).1 ha
        refine ⟨insert pl S, ?_, ?_, ⟨pl, by simp⟩⟩
        · intro p
          rw [Finset.mem_insert, s1]
          by_cases hp : p = pl
          · subst hp; simp [awake]
          · simp [awake, hp, Function.update_of_ne hp]
        · rw [Finset.card_insert_of_notMem hpl]; push_cast; rw [s2]
      · simp only [Function.update_of_ne hba] at hb
        obtain ⟨S, s1, s2, s3⟩ := hi.cnt b t' hb
        refine ⟨S, ?_, s2, s3⟩
        intro p
        rw [s1]
        by_cases hp : p = pl
        · subst hp
          simp [ha, Ne.symm hba]
        · simp [awake, hp, Function.update_of_ne hp]
    · intro b
      refine ⟨(hi.list b).1, ?_⟩
      intro c hc
      obtain ⟨t', k1, k2⟩ := (hi.list b).2 c hc
      by_cases hca : c = a
      · subst hca
        rw [ht] at k1
        obtain rfl := Option.some.inj k1
        exact ⟨{ t with refcnt := t.refcnt + 1 }, by simp, k2⟩
      · exact ⟨t', by simp [Function.update_of_ne hca, k1], k2⟩
  | none =>
    simp only
    have hfresh : st.heap st.next = none := by
      by_contra hne
      obtain ⟨t, ht⟩ := Option.ne_none_iff_exists'.1 hne
      exact absurd (hi.tab _ t ht).1 (lt_irrefl _)
    refine ⟨_, rfl, ?_, ?_, ?_, ?_⟩
    · intro p y hy
      rw [awake] at hy
      by_cases hp : p = pl
      · subst hp
        rw [if_pos rfl] at hy
        obtain rfl := Option.some.inj hy
        exact ⟨st.next, _, by simp, by simp; rfl, List.prefix_refl _⟩
      · rw [if_neg hp] at hy
        obtain ⟨b, t', k1, k2, k3⟩ := hi.hold p y hy
        have hb : b ≠ st.next := by rintro rfl; rw [hfresh] at k2; simp at k2
        exact ⟨b, t', by simp [Function.update_of_ne hp, k1], by simp [Function.update_of_ne hb, k2], k3⟩
    · intro b t' hb
      by_cases hba : b = st.next
      · subst hba
        simp only [Function.update_self, Option.some.injEq] at hb
        subst hb
        refine ⟨by simp, rfl, by simp⟩
      · simp only [Function.update_of_ne hba] at hb
        obtain ⟨k1, k2, k3⟩ := hi.tab b t' hb
        refine ⟨by simp only; omega, k2, ?_⟩
        by_cases hh : hash t'.n t'.r = hash x.n x.r
        · simp only [hh, Function.update_self]
          rw [hh] at k3
          exact List.mem_cons_of_mem _ k3
        · simp only [Function.update_of_ne hh]; exact k3
    · intro b t' hb
      by_cases hba : b = st.next
      · subst hba
        simp only [Function.update_self, Option.some.injEq] at hb
        subst hb
        refine ⟨{pl}, ?_, by simp, by simp⟩
        intro p
        by_cases hp : p = pl
        · subst hp; simp [awake]
        · simp only [Finset.mem_singleton, hp, false_iff, awake, if_false, not_and]
          intro hne hcon
          simp only [Function.update_of_ne hp] at hcon
          obtain ⟨y, hy⟩ := Option.ne_none_iff_exists'.1 hne
          obtain ⟨c, t'', k1, k2, _⟩ := hi.hold p y hy
          rw [hcon] at k1
          obtain rfl := Option.some.inj k1
          rw [hfresh] at k2; simp at k2
      · simp only [Function.update_of_ne hba] at hb
        obtain ⟨S, s1, s2, s3⟩ := hi.cnt b t' hb
        refine ⟨S, ?_, s2, s3⟩
        intro p
        rw [s1]
        by_cases hp : p = pl
        · subst hp
          simp [ha, Ne.symm hba]
        · simp [awake, hp, Function.update_of_ne hp]
    · intro b
      have key : ∀ c ∈ st.twlist b, ∃ t, Function.update st.heap st.next (some ⟨compute (cx x.w) x.q x.n x.r x.m, x.n, x.r, x.m, 1, x.q, x.w⟩) c = some t ∧ hash t.n t.r = b := by
        intro c hc
        obtain ⟨t', k1, k2⟩ := (hi.list b).2 c hc
        have hca : c ≠ st.next := by rintro rfl; rw [hfresh] at k1; simp at k1
        exact ⟨t', by simp [Function.update_of_ne hca, k1], k2⟩
      have hnin : st.next ∉ st.twlist b := by
        intro hc
        obtain ⟨t', k1, k2⟩ := (hi.list b).2 _ hc
        rw [hfresh] at k1; simp at k1
      by_cases hh : b = hash x.n x.r
      · subst hh
        simp only [Function.update_self]
        refine ⟨List.nodup_cons.2 ⟨hnin, (hi.list _).1⟩, ?_⟩
        intro c hc
        rcases List.mem_cons.1 hc with rfl | hc
        · exact ⟨⟨compute (cx x.w) x.q x.n x.r x.m, x.n, x.r, x.m, 1, x.q, x.w⟩, Function.update_self .., rfl⟩
        · exact key c hc
      · simp only [Function.update_of_ne hh]
        exact ⟨(hi.list b).1, key⟩

theorem sleep_inv {h : List Call} {st : St} (hi : Inv cx h st) (pl : ℕ) (ha : awake h pl ≠ none) :
    ∃ st', twiddleDestroy st pl = some st' ∧ Inv cx (.sleep pl :: h) st' := by
  obtain ⟨y, hy⟩ := Option.ne_none_iff_exists'.1 ha
  obtain ⟨a, t, k1, k2, _⟩ := hi.hold pl y hy
  obtain ⟨S, s1, s2, s3⟩ := hi.cnt a t k2
  have hpl : pl ∈ S := (s1 pl).2 ⟨ha, k1⟩
  unfold twiddleDestroy
  rw [k1]
  simp only [k2]
  by_cases hz : t.refcnt - 1 = 0
  · rw [if_pos hz]
    have hmem := (hi.tab a t k2).2.2
    simp only [unlink_eq hmem]
    have hS : S = {pl} := by
      have : S.card = 1 := by omega
      obtain ⟨z, hz⟩ := Finset.card_eq_one.1 this
      rw [hz] at hpl ⊢
      rw [Finset.mem_singleton.1 hpl]
    have hother : ∀ p, p ≠ pl → awake h p ≠ none → st.td p ≠ some a := by
      intro p hp h1 h2
      have := (s1 p).2 ⟨h1, h2⟩
      rw [hS, Finset.mem_singleton] at this
      exact hp this
    refine ⟨_, rfl, ?_, ?_, ?_, ?_⟩
    · intro p z hz
      rw [awake] at hz
      by_cases hp : p = pl
      · rw [if_pos hp] at hz; simp at hz
      · rw [if_neg hp] at hz
        obtain ⟨b, t', l1, l2, l3⟩ := hi.hold p z hz
        have hb : b ≠ a := by rintro rfl; exact hother p hp (by rw [hz]; simp) l1
        exact ⟨b, t', by simp [Function.update_of_ne hp, l1], by simp [Function.update_of_ne hb, l2], l3⟩
    · intro b t' hb
      by_cases hba : b = a
      · subst hba; simp at hb
      · simp only [Function.update_of_ne hba] at hb
        obtain ⟨l1, l2, l3⟩ := hi.tab b t' hb
        refine ⟨l1, l2, ?_⟩
        by_cases hh : hash t'.n t'.r = hash t.n t.r
        · simp only [hh, Function.update_self]
          rw [hh] at l3
          exact (List.mem_erase_of_ne hba).2 l3
        · simp only [Function.update_of_ne hh]; exact l3
    · intro b t' hb
      by_cases hba : b = a
      · subst hba; simp at hb
      · simp only [Function.update_of_ne hba] at hb
        obtain ⟨S', q1, q2, q3⟩ := hi.cnt b t' hb
        refine ⟨S', ?_, q2, q3⟩
        intro p
        rw [q1]
        by_cases hp : p = pl
        · subst hp
          simp [awake, k1, Ne.symm hba]
        · simp [awake, hp, Function.update_of_ne hp]
    · intro b
      by_cases hh : b = hash t.n t.r
      · subst hh
        simp only [Function.update_self]
        refine ⟨(hi.list _).1.erase a, ?_⟩
        intro c hc
        have hne : c ≠ a := fun he => by
          subst he
          exact (hi.list _).1.not_mem_erase hc
        obtain ⟨t', l1, l2⟩ := (hi.list _).2 c (List.mem_of_mem_erase hc)
        exact ⟨t', by simp [Function.update_of_ne hne, l1], l2⟩
      · simp only [Function.update_of_ne hh]
        refine ⟨(hi.list b).1, ?_⟩
        intro c hc
        obtain ⟨t', l1, l2⟩ := (hi.list b).2 c hc
        have hne : c ≠ a := by
          rintro rfl
          rw [k2] at l1
          obtain rfl := Option.some.inj l1
          exact hh l2.symm
        exact ⟨t', by simp [Function.update_of_ne hne, l1], l2⟩
  · rw [if_neg hz]
    refine ⟨_, rfl, ?_, ?_, ?_, ?_⟩
    · intro p z hz
      rw [awake] at hz
      by_cases hp : p = pl
      · rw [if_pos hp] at hz; simp at hz
      · rw [if_neg hp] at hz
        obtain ⟨b, t', l1, l2, l3⟩ := hi.hold p z hz
        by_cases hb : b = a
        · subst hb
          rw [k2] at l2
          obtain rfl := Option.some.inj l2
          exact ⟨b, { t with refcnt := t.refcnt - 1 }, l1, by simp, l3⟩
        · exact ⟨b, t', l1, by simp [Function.update_of_ne hb, l2], l3⟩
    · intro b t' hb
      by_cases hba : b = a
      · subst hba
        simp only [Function.update_self, Option.some.injEq] at hb
        subst hb
        exact hi.tab b t k2
      · simp only [Function.update_of_ne hba] at hb
        exact hi.tab b t' hb
    · intro b t' hb
      by_cases hba : b = a
      · subst hba
        simp only [Function.update_self, Option.some.injEq] at hb
        subst hb
        refine ⟨S.erase pl, ?_, ?_, ?_⟩
        · intro p
          rw [Finset.mem_erase, s1]
          by_cases hp : p = pl
          · subst hp; simp [awake]
          · simp [awake, hp]
        · rw [Finset.card_erase_of_mem hpl]
          have : 0 < S.card := Finset.card_pos.2 s3
          show ((S.card - 1 : ℕ) : ℤ) = t.refcnt - 1
          rw [← s2]
          push_cast [this]
          rfl
        · rw [← Finset.card_pos, Finset.card_erase_of_mem hpl]
          have h3 : 0 < S.card := Finset.card_pos.2 s3
          rw [← s2] at hz
          have h4 : S.card ≠ 1 := fun h => hz (by rw [h]; rfl)
          omega
      · simp only [Function.update_of_ne hba] at hb
        obtain ⟨S', q1, q2, q3⟩ := hi.cnt b t' hb
        refine ⟨S', ?_, q2, q3⟩
        intro p
        rw [q1]
        by_cases hp : p = pl
        · subst hp
          simp [awake, k1, Ne.symm hba]
        · simp [awake, hp]
    · intro b
      refine ⟨(hi.list b).1, ?_⟩
      intro c hc
      obtain ⟨t', l1, l2⟩ := (hi.list b).2 c hc
      by_cases hca : c = a
      · subst hca
        rw [k2] at l1
        obtain rfl := Option.some.inj l1
        exact ⟨{ t with refcnt := t.refcnt - 1 }, by simp, l2⟩
      · exact ⟨t', by simp [Function.update_of_ne hca, l1], l2⟩

theorem run_inv (cs : List Call) : ∀ (h : List Call) (st : St), Inv cx h st → Legal (cs.reverse ++ h) →
    ∃ st', run cx st cs = some st' ∧ Inv cx (cs.reverse ++ h) st' := by
  induction cs with
  | nil => intro h st hi _; exact ⟨st, rfl, hi⟩
  | cons c cs ih =>
    intro h st hi hl
    simp only [List.reverse_cons, List.append_assoc, List.singleton_append] at hl ⊢
    have hlc : Legal (c :: h) := by
      have : ∀ (a b : List Call), Legal (a ++ b) → Legal b := by
        intro a
        induction a with
        | nil => intro b hb; exact hb
        | cons x a iha =>
          intro b hb
          cases x with
          | wake pl y => exact iha b hb.1
          | sleep pl => exact iha b hb.1
      exact this _ _ hl
    have : ∃ st1, step cx st c = some st1 ∧ Inv cx (c :: h) st1 := by
      cases c with
      | wake pl x => exact wake_inv cx hi pl x hlc.2.1
      | sleep pl => exact sleep_inv cx hi pl hlc.2
    obtain ⟨st1, e1, hi1⟩ := this
    obtain ⟨st', e2, hi2⟩ := ih (c :: h) st1 hi1 hl
    exact ⟨st', by rw [run, e1]; exact e2, hi2⟩

/-- **C15.**  After any legal history of waking and sleeping plans (given latest call first), none of which touches a freed
object: every awake plan holds a live table beginning with exactly the numbers its program asks for, and an object is live
iff some awake plan uses it (so it is freed exactly when its last user goes to sleep). -/
theorem C15_tables_valid_while_in_use (h : List Call) (hl : Legal h) :
    ∃ st, run cx init h.reverse = some st ∧
      (∀ p x, awake h p = some x → ∃ a t, st.td p = some a ∧ st.heap a = some t ∧ compute (cx x.w) x.q x.n x.r x.m <+: t.W) ∧
      ∀ a, (st.heap a ≠ none ↔ ∃ p, awake h p ≠ none ∧ st.td p = some a) := by
  have h0 : Inv cx [] init := ⟨by simp [awake], by simp [init], by simp [init], by simp [init]⟩
  obtain ⟨st, h1, h2⟩ := run_inv cx h.reverse [] init h0 (by simpa using hl)
  simp only [List.reverse_reverse, List.append_nil] at h2
  refine ⟨st, h1, h2.hold, ?_⟩
  intro a
  constructor
  · intro hne
    obtain ⟨t, ht⟩ := Option.ne_none_iff_exists'.1 hne
    obtain ⟨S, s1, _, p, hp⟩ := h2.cnt a t ht
    exact ⟨p, (s1 p).1 hp⟩
  · rintro ⟨p, hp, ha⟩
    obtain ⟨x, hx⟩ := Option.ne_none_iff_exists'.1 hp
    obtain ⟨b, t, k1, k2, _⟩ := h2.hold p x hx
    rw [ha] at k1
    obtain rfl := Option.some.inj k1
    rw [k2]; simp

/-- **C15**, once all plans sleep, no table is left -/
theorem C15_all_freed (h : List Call) (hl : Legal h) (hs : ∀ p, awake h p = none) :
    ∃ st, run cx init h.reverse = some st ∧ ∀ a, st.heap a = none := by
  obtain ⟨st, h1, _, h3⟩ := C15_tables_valid_while_in_use cx h hl
  refine ⟨st, h1, ?_⟩
  intro a
  by_contra hne
  obtain ⟨p, hp, _⟩ := (h3 a).1 hne
  exact hp (hs p)

theorem emit_length {c : ℕ → ℤ → ℝ × ℝ} {n r : ℕ} (j : ℤ) (p : Instr) (hr : p.op = .half → r % 2 = 1) :
    (emit c n r j p).length = opLen r p.op := by
  unfold emit
  obtain ⟨o, v, i⟩ := p
  cases o <;> simp [opLen]
  have := hr rfl
  omega

/-- **C15**, the table fills its allocation exactly: `twlen * (m / vl)` numbers (`vl` divides `m`, and `r` is odd if `TW_HALF`
is used, as asserted) -/
theorem C15_table_length (c : ℕ → ℤ → ℝ × ℝ) (q : Prog) (n r m : ℕ) (hv : 0 < q.vl) (hd : q.vl ∣ m) (hr : ∀ p ∈ q.is, p.op = .half → r % 2 = 1) :
    (compute c q n r m).length = twlen r q * (m / q.vl) := by
  obtain ⟨k, rfl⟩ := hd
  have e : (q.vl * k + q.vl - 1) / q.vl = k := by
    rw [Nat.add_sub_assoc hv, Nat.mul_add_div hv, Nat.div_eq_of_lt (by omega), Nat.add_zero]
  unfold compute twlen
  rw [e, Nat.mul_div_cancel_left _ hv, List.length_flatMap]
  have : ∀ jj : ℕ, (q.is.flatMap fun p => emit c n r ((jj * q.vl : ℕ) : ℤ) p).length = (q.is.map fun p => opLen r p.op).sum := by
    intro jj
    rw [List.length_flatMap]
    congr 1
    apply List.map_congr_left
    intro p hp
    exact emit_length _ p (hr p hp)
  simp only [this]
  rw [List.map_const', List.sum_replicate, List.length_range, smul_eq_mul, Nat.mul_comm]

/-- **C15**, exact entries: both kinds of awake trigonometry produce cosine and sine of `2πm/n` (from C13, C14) -/
theorem C15_cexp_exact (COS SIN : ℝ → ℝ) (hg : Props.GoodTrig COS SIN) (w : Wake) (hw : w ≠ .zero) (n : ℕ) (hn : 0 < n) (m : ℤ) (h1 : -(n : ℤ) ≤ m) (h2 : m < n) :
    cexp COS SIN w n m = (Real.cos (2 * Real.pi * m / n), Real.sin (2 * Real.pi * m / n)) := by
  cases w with
  | zero => exact absurd rfl hw
  | sincos => exact Props.C13_real_cexp COS SIN hg m n (by omega) h1 h2.le
  | sqrtnTable =>
    simp only [cexp]
    rw [Props.C14_sqrtn_table COS SIN hg m n h1 h2]
    rfl

/-! non-vacuity: two plans share a table; the second one asks for less -/
private def exQ : Prog := ⟨[⟨.half, 1, 0⟩], 1⟩
private def exQ' : Prog := ⟨[⟨.half, 1, 7⟩], 1⟩
private def exH : List Call := [.sleep 0, .wake 1 ⟨.sincos, exQ', 7, 7, 2⟩, .wake 0 ⟨.sincos, exQ, 7, 7, 3⟩]

example : Legal exH ∧ awake exH 1 ≠ none ∧ awake exH 0 = none := by
  refine ⟨⟨⟨⟨trivial, rfl, by decide⟩, rfl, by decide⟩, by simp [awake]⟩, by simp [exH, awake], by simp [exH, awake]⟩

example : okTwid ⟨[], 7, 7, 3, 1, exQ, .sincos⟩ ⟨.sincos, exQ', 7, 7, 2⟩ = true := by decide

end FFTW.Twiddle
