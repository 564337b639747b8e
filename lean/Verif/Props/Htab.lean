import Verif.Proofs.Htab

/-!
# C16, C17: the table of solutions
-/

namespace FFTW.Planner
open WisdomSpec

theorem LEQ_iff {w : ℕ} (x y : BitVec w) : LEQ x y = true ↔ Incl x y := by
  simp only [LEQ, decide_eq_true_eq, Incl]
  constructor
  · intro h i hi hx
    rw [← h] at hx
    simp only [BitVec.getLsbD_and, Bool.and_eq_true] at hx
    exact hx.2
  · intro h
    ext i hi
    have := h i hi
    simp only [BitVec.getElem_and]
    simp only [BitVec.getLsbD_eq_getElem hi] at this
    cases hx : x[i] <;> simp_all

theorem subsumes_iff (f g : FlagsT) (n : BitVec 12) (s : MSig) : subsumes f n g = true ↔ Answers (mkEntry s f n) s g.l g.u g.tli := by
  unfold subsumes Answers mkEntry INFEASIBLE_SLVNDX
  by_cases h : n = 0xFFF
  · simp only [h, ne_eq, not_true_eq_false, if_false, if_true, Bool.and_eq_true, LEQ_iff, decide_eq_true_eq, true_and]
    rfl
  · simp only [h, ne_eq, not_false_eq_true, if_true, if_false, Bool.and_eq_true, LEQ_iff, true_and]

/-- one insertion -/
def insertFact (t : HTab) (e : Entry) : Option HTab := htabInsert t e.s ⟨e.l, e.u, e.tli, 0⟩ e.slvndx

/-- a history of insertions into a new table -/
def runHistory (es : List Entry) : Option HTab := mkhashtab.bind fun t => es.foldlM insertFact t

theorem doomed_iff (e x : Entry) : x.doomed e.s ⟨e.l, e.u, e.tli, 0⟩ e.slvndx = true ↔ Answers e x.s x.l x.u x.tli := by
  unfold Entry.doomed
  rw [Bool.and_eq_true, subsumes_iff _ _ _ e.s, decide_eq_true_eq]
  unfold Answers mkEntry
  simp only [true_and]

theorem history_inv (es : List Entry) : ∀ (t : HTab) (W : Set Entry), t.Inv → (∀ e, e ∈ t.contents ↔ e ∈ W) → t.nelem + es.length ≤ 2 ^ 60 →
    ∃ t', es.foldlM insertFact t = some t' ∧ t'.Inv ∧ (∀ e, e ∈ t'.contents ↔ e ∈ es.foldl record W) ∧ t'.nelem ≤ t.nelem + es.length := by
  induction es with
  | nil => intro t W hi hW _; exact ⟨t, rfl, hi, hW, by simp⟩
  | cons e es ih =>
    intro t W hi hW hn
    rw [List.length_cons] at hn
    obtain ⟨t1, h1, h2, h3, h4⟩ := htabInsert_spec hi (by omega) e.s ⟨e.l, e.u, e.tli, 0⟩ e.slvndx
    obtain ⟨t2, k1, k2, k3, k4⟩ := ih t1 (record W e) h2 (by
      intro x
      rw [h3, Multiset.mem_cons, Multiset.mem_filter, hW, doomed_iff]
      exact Iff.rfl) (by omega)
    exact ⟨t2, by simp only [List.foldlM_cons, insertFact, h1, Option.bind_eq_bind, Option.bind_some]; exact k1, k2, k3, by simp only [List.length_cons]; omega⟩

theorem runHistory_spec (es : List Entry) (hn : es.length ≤ 2 ^ 60) :
    ∃ t, runHistory es = some t ∧ t.Inv ∧ (∀ e, e ∈ t.contents ↔ e ∈ recordAll es) ∧ t.nelem ≤ es.length := by
  obtain ⟨t0, h1, h2, h3, h4⟩ := mkhashtab_spec
  obtain ⟨t, k1, k2, k3, k4⟩ := history_inv es t0 ∅ h2 (by rw [h3]; simp) (by omega)
  exact ⟨t, by rw [runHistory, h1]; exact k1, k2, k3, by omega⟩

theorem mem_contents {t : HTab} {e : Entry} : e ∈ t.contents ↔ ∃ x ∈ t.sols, x.live = true ∧ x.entry = e := by
  unfold HTab.contents
  rw [Multiset.mem_coe, List.mem_map]
  constructor
  · rintro ⟨x, hx, he⟩
    rw [List.mem_filter] at hx
    exact ⟨x, hx.1, hx.2, he⟩
  · rintro ⟨x, h1, h2, h3⟩
    exact ⟨x, List.mem_filter.2 ⟨h1, h2⟩, h3⟩

theorem cand_iff {s : MSig} {f : FlagsT} {x : Slot} : x.cand s f ↔ x.live = true ∧ Answers x.entry s f.l f.u f.tli := by
  unfold Slot.cand
  rw [subsumes_iff _ _ _ x.s]
  constructor
  · rintro ⟨h1, h2, h3⟩
    exact ⟨h1, by rw [← h2]; exact h3⟩
  · rintro ⟨h1, h2⟩
    exact ⟨h1, h2.1, by rw [← h2.1] at h2; exact h2⟩

/-- **C16.**  Run any history of insertions on a new hash table (growth, collisions and removals included).  A lookup always
terminates; it fails iff no fact of the abstract set `recordAll es` answers the question; if it succeeds, its result is a
fact of that set which answers the question, and no other answering fact has a strictly smaller `u`. -/
theorem C16_table_is_the_abstract_set (es : List Entry) (hn : es.length ≤ 2 ^ 60) :
    ∃ t, runHistory es = some t ∧ ∀ (s : MSig) (f : FlagsT), ∃ r, htabLookup t s f = some r ∧
      (r = none ↔ ∀ e ∈ recordAll es, ¬ Answers e s f.l f.u f.tli) ∧
      ∀ x, r = some x → x.entry ∈ recordAll es ∧ Answers x.entry s f.l f.u f.tli ∧
        ∀ e ∈ recordAll es, Answers e s f.l f.u f.tli → Incl e.u x.entry.u → e.u = x.entry.u := by
  obtain ⟨t, h1, h2, h3, _⟩ := runHistory_spec es hn
  refine ⟨t, h1, ?_⟩
  intro s f
  obtain ⟨r, k1, k2, k3⟩ := htabLookup_spec h2 s f
  refine ⟨r, k1, ⟨?_, ?_⟩, ?_⟩
  · intro hr e he ha
    obtain ⟨x, x1, x2, x3⟩ := mem_contents.1 ((h3 e).2 he)
    exact k3 hr x x1 (cand_iff.2 ⟨x2, by rw [x3]; exact ha⟩)
  · intro h
    cases r with
    | none => rfl
    | some x =>
      obtain ⟨x1, x2, _⟩ := k2 x rfl
      obtain ⟨x2, x3⟩ := cand_iff.1 x2
      exact absurd x3 (h _ ((h3 _).1 (mem_contents.2 ⟨x, x1, x2, rfl⟩)))
  · intro x hx
    obtain ⟨x1, x2, x3⟩ := k2 x hx
    obtain ⟨x4, x5⟩ := cand_iff.1 x2
    refine ⟨(h3 _).1 (mem_contents.2 ⟨x, x1, x4, rfl⟩), x5, ?_⟩
    intro e he ha hl
    obtain ⟨y, y1, y2, y3⟩ := mem_contents.1 ((h3 e).2 he)
    have := x3 y y1 (cand_iff.2 ⟨y2, by rw [y3]; exact ha⟩) (by rw [LEQ_iff]; rw [← y3] at hl; exact hl)
    rw [← y3]
    exact this

/-- **C16**, storage: the live entries of the table after a history are exactly the abstract set, and one more insertion keeps
exactly the entries that it does not make superfluous, each as often as before -/
theorem C16_insert_removes_exactly_the_subsumed (es : List Entry) (e : Entry) (hn : es.length < 2 ^ 60) :
    ∃ t t', runHistory es = some t ∧ insertFact t e = some t' ∧
      (∀ x, x ∈ t.contents ↔ x ∈ recordAll es) ∧
      (∀ x, x ∈ t'.contents ↔ x = e ∨ x ∈ t.contents ∧ ¬ Answers e x.s x.l x.u x.tli) ∧
      ∀ x, x ≠ e → ¬ Answers e x.s x.l x.u x.tli → t'.contents.count x = t.contents.count x := by
  obtain ⟨t, h1, h2, h3, h4⟩ := runHistory_spec es hn.le
  obtain ⟨t', k1, k2, k3, k4⟩ := htabInsert_spec h2 (by omega) e.s ⟨e.l, e.u, e.tli, 0⟩ e.slvndx
  refine ⟨t, t', h1, k1, h3, ?_, ?_⟩
  · intro x
    rw [k3, Multiset.mem_cons, Multiset.mem_filter, doomed_iff]
    exact Iff.rfl
  · intro x hx ha
    rw [k3, Multiset.count_cons_of_ne (by exact hx), Multiset.count_filter_of_pos (by rw [doomed_iff]; exact ha)]

/-- **C17**, size: after any history the number of slots is prime and at least one slot is not live -/
theorem C17_prime_and_never_full (es : List Entry) (hn : es.length ≤ 2 ^ 60) :
    ∃ t, runHistory es = some t ∧ t.siz.Prime ∧ t.nelem = (t.sols.filter Slot.live).length ∧ t.nelem < t.siz ∧
      ∃ x ∈ t.sols, x.live = false := by
  obtain ⟨t, h1, h2, _⟩ := runHistory_spec es hn
  obtain ⟨g, y, hg, hy⟩ := exists_free h2.count h2.room
  exact ⟨t, h1, h2.prime, h2.count, h2.room, y, List.mem_of_getElem? hg, hy⟩

/-- **C17**, probing: the slots visited in `siz` steps of a probe loop are distinct and inside the table, whatever the
signature; hence every slot is visited exactly once before the loop is back at its start -/
theorem C17_probe_visits_each_slot_once (t : HTab) (hp : t.siz.Prime) (s : MSig) :
    ∃ h d, h1 t s = some h ∧ h2 t s = some d ∧
      (∀ i, (fun g => addmod g d t.siz)^[i] h < t.siz) ∧
      (∀ i j, i < t.siz → j < t.siz → (fun g => addmod g d t.siz)^[i] h = (fun g => addmod g d t.siz)^[j] h → i = j) ∧
      (∀ g < t.siz, ∃ i < t.siz, (fun g => addmod g d t.siz)^[i] h = g) := by
  have e : ∀ i, (fun g => addmod g (1 + s.s1 % (t.siz - 1)) t.siz)^[i] (chain t.siz s 0) = chain t.siz s i := by
    intro i
    induction i with
    | zero => rfl
    | succ i ih => rw [Function.iterate_succ_apply', ih]; exact addmod_chain hp.two_le s i
  refine ⟨_, _, h1_eq hp.two_le s, h2_eq hp.two_le s, ?_, ?_, ?_⟩
  · intro i; rw [e]; exact chain_lt hp.pos s i
  · intro i j hi hj h
    rw [e, e] at h
    exact chain_inj hp s hi hj h
  · intro g hg
    obtain ⟨i, hi, h⟩ := chain_surj hp s hg
    exact ⟨i, hi, by rw [e]; exact h⟩

/-- **C17**, termination: after any history, lookups and insertions return (the loops end, no slot outside the table is
touched, a free slot is found) -/
theorem C17_operations_terminate (es : List Entry) (hn : es.length < 2 ^ 60) :
    ∃ t, runHistory es = some t ∧ (∀ s f, (htabLookup t s f).isSome) ∧ ∀ s f n, (htabInsert t s f n).isSome := by
  obtain ⟨t, h1, h2, _, h4⟩ := runHistory_spec es hn.le
  refine ⟨t, h1, ?_, ?_⟩
  · intro s f
    obtain ⟨r, k, _⟩ := htabLookup_spec h2 s f
    rw [k]; rfl
  · intro s f n
    obtain ⟨r, k, _⟩ := htabInsert_spec h2 (by omega) s f n
    rw [k]; rfl

/-! ### non-vacuity: the abstract set keeps an unrelated fact, drops a superfluous one, answers and refuses -/

private def exA : Entry := ⟨⟨7, 9, 1, 2⟩, 0x3, 0xF, 0, 5⟩
private def exB : Entry := ⟨⟨7, 9, 1, 2⟩, 0xF, 0xF, 0, 5⟩
private def exC : Entry := ⟨⟨7, 9, 1, 3⟩, 0x3, 0xF, 4, 0xFFF⟩

theorem incl_of_and {w : ℕ} {x y : BitVec w} (h : x &&& y = x) : Incl x y := (LEQ_iff x y).1 (by simp [LEQ, h])

example : recordAll [exA, exC, exB] = {exB, exC} := by
  have h1 : Answers exB exA.s exA.l exA.u exA.tli :=
    ⟨rfl, by rw [if_neg (by decide)]; exact ⟨incl_of_and (by decide), incl_of_and (by decide)⟩⟩
  have h2 : ¬ Answers exB exC.s exC.l exC.u exC.tli := by rintro ⟨h, _⟩; exact absurd h (by decide)
  have h3 : ¬ Answers exC exA.s exA.l exA.u exA.tli := by rintro ⟨h, _⟩; exact absurd h (by decide)
  ext e
  simp only [recordAll, List.foldl_cons, List.foldl_nil, record, Set.mem_insert_iff, Set.mem_setOf_eq, Set.mem_empty_iff_false, false_and, or_false, Set.mem_singleton_iff]
  constructor
  · rintro (h | ⟨h, h'⟩)
    · exact Or.inl h
    · rcases h with rfl | ⟨rfl, _⟩
      · exact Or.inr rfl
      · exact absurd h1 h'
  · rintro (h | rfl)
    · exact Or.inl h
    · exact Or.inr ⟨Or.inl rfl, h2⟩

/-- a question that is answered and one that is not -/
example : Answers exB ⟨7, 9, 1, 2⟩ 0x1 0x1F 3 ∧ ¬ Answers exB ⟨7, 9, 1, 2⟩ 0x1 0x7 3 := by
  refine ⟨⟨rfl, by rw [if_neg (by decide)]; exact ⟨incl_of_and (by decide), incl_of_and (by decide)⟩⟩, ?_⟩
  rintro ⟨_, h⟩
  rw [if_neg (by decide)] at h
  exact absurd (h.1 3 (by omega) (by decide)) (by decide)

end FFTW.Planner
