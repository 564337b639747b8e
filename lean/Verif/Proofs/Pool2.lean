import Verif.Proofs.Pool
/-!
# Preservation of the thread-pool invariant: steps of `spawn_loop`, `dequeue`, `enqueue`
-/

namespace FFTW.Pool
open FFTW.Spawn

variable {s s' : Sys} {g g' : Ghost} {t : Tid}

theorem Inv.dying (I : Inv s g) {w : ℕ} (h : g.own w = .dying) : s.cleaning = true ∧ (s.stack (.wk w)).length ≤ 1 := by
  have hw := I.wrk w
  simp only [WInv, h] at hw
  obtain ⟨_, _, _, t, f, st, hl, hs, hf⟩ := hw
  have hk := I.stk t
  rw [hs] at hk
  have : KX s g t f := by
    rcases hf with rfl | rfl | rfl <;> cases hk with
    | job hj _ _ _ => simp [jphase] at hj
    | kill _ _ hx _ => exact hx
    | worker _ _ hh => simp at hh
  refine ⟨this.2.1, ?_⟩
  have hc := this.2.2
  rcases hf with rfl | rfl | rfl <;> simp only at hc
  · rw [hc.2.2.2]; simp
  · rcases hc.2 with ⟨_, h | h | h⟩ | h
    · rw [h.2]; simp
    · rw [h.2]; simp
    · rw [h.2]; simp
    · rw [h.2]; simp
  · rw [hc.2.2]; simp

/-- a worker thread inside `proc` has an assigned block -/
theorem Inv.deep (I : Inv s g) {w : ℕ} (h : 2 ≤ (s.stack (.wk w)).length) : ∃ J i, g.own w = .asg J i ∧ s.ready w = 0 ∧ s.done w = 0 ∧
    ns s.log J i = 1 ∧ nf s.log J i = 0 := by
  have hw := I.wrk w
  cases ho : g.own w with
  | dead => simp only [WInv, ho] at hw; rw [hw.2] at h; simp at h
  | queue => simp only [WInv, ho] at hw; rw [hw.2.2.2] at h; simp at h
  | held t => simp only [WInv, ho] at hw; rw [hw.2.2.2.1] at h; simp at h
  | dying => have := (I.dying ho).2; omega
  | asg J i =>
    simp only [WInv, ho] at hw
    obtain ⟨_, _, _, _, hst⟩ := hw
    refine ⟨J, i, rfl, ?_⟩
    rcases hst with h' | h' | h' | h' | h'
    · rw [h'.2.2.1] at h; simp at h
    · rw [h'.2.2.1] at h; simp at h
    · exact ⟨h'.1, h'.2.1, h'.2.2.2.1, h'.2.2.2.2⟩
    · rw [h'.2.2.1] at h; simp at h
    · rw [h'.2.2.1] at h; simp at h

theorem Inv.active (I : Inv s g) {J : ℕ} {x : Tid × Job × Phase} (h : g.ph J = some x) : s.cleaning = false := by
  cases hc : s.cleaning with
  | false => rfl
  | true => have := (I.cln hc).1 J; rw [h] at this; cases this

theorem Inv.kx (I : Inv s g) (hc : s.cleaning = false) {t : Tid} {f : Frame} : ¬ KX s g t f := by
  rintro ⟨_, h, _⟩; rw [hc] at h; cases h

theorem Inv.ndying (I : Inv s g) (hc : s.cleaning = false) (w : ℕ) : g.own w ≠ .dying := by
  intro h; have := (I.dying h).1; rw [hc] at this; cases this

theorem Ret.ne_nil {J : ℕ} {st : List Frame} (h : Ret g t J st) : st ≠ [] := by cases h <;> simp

/-- what one knows when the top frame belongs to a call -/
theorem Inv.top (I : Inv s g) {f : Frame} {st : List Frame} (hs : s.stack t = f :: st) {J : ℕ} {r : Job} {φ : Phase}
    (hj : jphase f = some (J, r, φ)) : g.ph J = some (t, r, φ) ∧ FX s g t f ∧ Ret g t J st := by
  have := I.stk t
  rw [hs] at this
  cases this with
  | app => simp [jphase] at hj
  | worker w hw hf => rcases hf with rfl | rfl | rfl | rfl <;> simp [jphase] at hj
  | run => simp [jphase] at hj
  | job hj' hp hx hr =>
    rw [hj] at hj'
    simp only [Option.some.injEq, Prod.mk.injEq] at hj'
    obtain ⟨rfl, rfl, rfl⟩ := hj'
    exact ⟨hp, hx, hr⟩
  | kill m hm hx hv =>
    have := hx.2.2
    cases f <;> simp [jphase] at hj <;> simp at this

/-- steps that move a call forward without changing its phase -/
theorem inv_job (I : Inv s g) {f f' : Frame} {st : List Frame} (hs : s.stack t = f :: st) {J : ℕ} {r : Job} {φ : Phase}
    (hj : jphase f = some (J, r, φ)) (hj' : jphase f' = some (J, r, φ))
    (lk : Option Tid) (hd : Option ℕ) (cd : ℕ → Option ℕ) (sl : ℕ → Option Slot) (wq : ℕ → ℕ → Option ℕ) (own : ℕ → Own) (l : List ℕ)
    (hlk : (s.lock = none ∨ s.lock = some t) ∨ lk = s.lock ∧ hd = s.head) (hlk' : lk = none ∨ lk = some t ∧ crit f' ∨ lk = s.lock ∧ s.lock ≠ some t)
    (how : ∀ w, g.own w ≠ .queue → g.own w ≠ .held t → own w = g.own w)
    (how' : ∀ w, g.own w = .queue ∨ g.own w = .held t → own w = .queue ∨ own w = .held t)
    (hwq : ∀ J', J' ≠ J → wq J' = s.wq J') (hwq' : ∀ i, φ.out r.blocks.length i → wq J i = s.wq J i)
    (hsl : ∀ w, g.own w ≠ .held t → sl w = s.slot w) (hcd : ∀ w, g.own w ≠ .held t → cd w = s.cdr w)
    (hs' : s' = { s with stack := Function.update s.stack t (f' :: st), lock := lk, head := hd, cdr := cd, slot := sl, wq := wq })
    (hg' : g' = { g with own := own, l := l })
    (hx : FX s' g' t f') (hh : ∀ w, own w = .held t → Holds s' f' w)
    (hl : IsList cd hd l) (hn : l.Nodup) (hm : ∀ w, w ∈ l ↔ own w = .queue) : Inv s' g' := by
  obtain ⟨hp, hx0, hr⟩ := I.top hs hj
  have hc := I.active hp
  have hnd := I.ndying hc
  have hasg : ∀ w J i, g.own w = .asg J i → own w = .asg J i := fun w J i h => by rw [how w (by simp [h]) (by simp [h]), h]
  have hasg' : ∀ w J i, own w = .asg J i → g.own w = .asg J i := fun w J i h => by
    by_contra hne
    by_cases h1 : g.own w = .queue ∨ g.own w = .held t
    · rcases how' w h1 with h2 | h2 <;> rw [h] at h2 <;> cases h2
    · push Not at h1
      rw [how w h1.1 h1.2] at h; exact hne h
  have hst : ∀ t', t' ≠ t → s'.stack t' = s.stack t' := fun t' h => by rw [hs']; exact Function.update_of_ne h _ _
  have hlen : ∀ w, t = .wk w → 2 ≤ (s.stack (.wk w)).length := fun w h => by
    subst h; rw [hs]; have := hr.ne_nil; cases st <;> simp_all
  have hst' : s'.stack t = f' :: st := by rw [hs']; exact Function.update_self ..
  have hidle : ∀ w f, s.stack (.wk w) = [f] → s'.stack (.wk w) = [f] := fun w f h => by
    rw [hst, h]; rintro rfl; have := hlen w rfl; rw [h] at this; simp at this
  have hnil : ∀ w, s.stack (.wk w) = [] → s'.stack (.wk w) = [] := fun w h => by
    rw [hst, h]; rintro rfl; have := hlen w rfl; rw [h] at this; simp at this
  have hlog : s'.log = s.log := by rw [hs']
  have hphe : g'.ph = g.ph := by rw [hg']
  have hinf : g'.info = g.info := by rw [hg']
  have hown : g'.own = own := by rw [hg']
  have hJ := I.job J t r φ hp
  constructor
  · intro t'
    by_cases ht : t' = t
    · subst ht
      rw [hst']
      exact .job hj' (by rw [hphe]; exact hp) hx (hr.congr (fun J' _ r φ h => by rw [hphe]) (fun w J i _ h => by rw [hown, hasg w J i h, h]))
    · rw [hst t' ht]
      refine (I.stk t').congr (fun J' r' φ' h => by rw [hphe]) (fun _ w J i _ h => by rw [hown, hasg w J i h, h]) ?_ ?_ ?_ ?_
      · intro w h
        have h1 : g.own w ≠ .held t := by rw [h]; simpa using ht
        refine ⟨by rw [hown, how w (by simp [h]) h1, h], ?_, ?_⟩
        · rw [hs']; exact hsl w h1
        · rw [hs']; exact hcd w h1
      · intro J' r' φ' h
        rw [hs']
        apply hwq
        rintro rfl
        rw [hp] at h
        simp only [Option.some.injEq, Prod.mk.injEq] at h
        exact ht h.1.symm
      · intro h
        rcases hlk with (h' | h') | ⟨h1, h2⟩
        · rw [h] at h'; cases h'
        · rw [h] at h'; exact absurd (Option.some.inj h') ht
        · rw [hs']; exact ⟨h1.trans h, h2⟩
      · intro f h; exact absurd h (I.kx hc)
  · intro w
    have hw := I.wrk w
    cases ho : g.own w with
    | dead =>
      simp only [WInv, hown, how w (by simp [ho]) (by simp [ho]), ho] at hw ⊢
      exact ⟨by rw [hs']; exact hw.1, hnil w hw.2⟩
    | asg J0 i0 =>
      simp only [WInv, hown, how w (by simp [ho]) (by simp [ho]), ho, hphe] at hw ⊢
      obtain ⟨h1, h2, h3, h4, h5⟩ := hw
      refine ⟨by rw [hs']; exact h1, ?_, ?_, h4, ?_⟩
      · rw [hs']
        show wq J0 i0 = _
        by_cases hJJ : J0 = J
        · subst hJJ
          obtain ⟨t1, r1, φ1, h41, h42⟩ := h4
          rw [hp] at h41
          simp only [Option.some.injEq, Prod.mk.injEq] at h41
          obtain ⟨rfl, rfl, rfl⟩ := h41
          rw [hwq' i0 h42, h2]
        · rw [hwq J0 hJJ, h2]
      · rw [hs']; show sl w = _; rw [hsl w (by simp [ho]), h3]
      · have e1 : s'.ready = s.ready := by rw [hs']
        have e2 : s'.done = s.done := by rw [hs']
        simp only [Stage, hlog, e1, e2] at h5 ⊢
        rcases h5 with h | h | h | h | h
        · exact .inl ⟨h.1, h.2.1, hidle w _ h.2.2.1, h.2.2.2⟩
        · exact .inr (.inl ⟨h.1, h.2.1, hidle w _ h.2.2.1, h.2.2.2⟩)
        · refine .inr (.inr (.inl ⟨h.1, h.2.1, ?_, h.2.2.2⟩))
          by_cases ht : Tid.wk w = t
          · rw [ht, hst']; have := hr.ne_nil; cases st <;> simp_all
          · rw [hst _ ht]; exact h.2.2.1
        · exact .inr (.inr (.inr (.inl ⟨h.1, h.2.1, hidle w _ h.2.2.1, h.2.2.2⟩)))
        · exact .inr (.inr (.inr (.inr ⟨h.1, h.2.1, hidle w _ h.2.2.1, h.2.2.2⟩)))
    | dying => exact absurd ho (hnd w)
    | queue | held t' =>
      by_cases ht : g.own w = .queue ∨ g.own w = .held t
      · have hbase : s.alive w = true ∧ s.ready w = 0 ∧ s.done w = 0 ∧ s.stack (.wk w) = [.wait] := by
          rcases ht with h | h <;> simp only [WInv, h] at hw
          · exact hw
          · exact ⟨hw.1, hw.2.1, hw.2.2.1, hw.2.2.2.1⟩
        have hbase' : s'.alive w = true ∧ s'.ready w = 0 ∧ s'.done w = 0 ∧ s'.stack (.wk w) = [.wait] := by
          refine ⟨?_, ?_, ?_, hidle w _ hbase.2.2.2⟩
          · rw [hs']; exact hbase.1
          · rw [hs']; exact hbase.2.1
          · rw [hs']; exact hbase.2.2.1
        rcases how' w ht with h | h
        · simp only [WInv, hown, h]; exact hbase'
        · simp only [WInv, hown, h]
          exact ⟨hbase'.1, hbase'.2.1, hbase'.2.2.1, hbase'.2.2.2, f', st, hst', hh w h⟩
      · push Not at ht
        simp only [ho, ne_eq, reduceCtorEq, not_false_eq_true, true_and, not_true_eq_false, false_and, Own.held.injEq] at ht
        try simp only [WInv, hown, how w (by simp [ho]) (by simpa [ho] using ht), ho] at hw ⊢
        try
          obtain ⟨h1, h2, h3, h4, f1, st1, h5, h6⟩ := hw
          refine ⟨by rw [hs']; exact h1, by rw [hs']; exact h2, by rw [hs']; exact h3, hidle w _ h4, f1, st1, by rw [hst _ ht]; exact h5, ?_⟩
          have h7 := I.stk t'
          rw [h5] at h7
          cases f1 <;> simp only [Holds] at h6 ⊢ <;> try exact h6
          rename_i J1 r1 i1
          obtain ⟨h8, -, -⟩ := I.top h5 (J := J1) (r := r1) (φ := .dist i1) rfl
          rw [hs']
          show wq J1 i1 = _
          rw [hwq J1 ?_, h6]
          rintro rfl
          rw [hp] at h8
          simp only [Option.some.injEq, Prod.mk.injEq] at h8
          exact ht h8.1.symm
  · intro J' t' r' φ' h
    rw [hphe] at h
    have h1 := I.job J' t' r' φ' h
    refine ⟨by rw [hs']; exact h1.job, h1.ok, h1.ne, by rw [hinf]; exact h1.info, ?_, ?_, by rw [hlog]; exact h1.cnt⟩
    · obtain ⟨fr, hf1, hf2⟩ := h1.frm
      by_cases ht : t' = t
      · subst ht
        rw [hst']
        rw [hs] at hf1
        rcases List.mem_cons.1 hf1 with rfl | hf1
        · obtain ⟨r2, φ2, h2⟩ := hf2
          rw [hj] at h2
          simp only [Option.some.injEq, Prod.mk.injEq] at h2
          obtain ⟨rfl, rfl, rfl⟩ := h2
          exact ⟨f', by simp, r, φ, hj'⟩
        · exact ⟨fr, by simp [hf1], hf2⟩
      · exact ⟨fr, by rw [hst t' ht]; exact hf1, hf2⟩
    · intro i hi
      obtain ⟨w, hw1, hw2⟩ := h1.out i hi
      refine ⟨w, ?_, by rw [hown]; exact hasg w J' i hw2⟩
      rw [hs']
      show wq J' i = _
      by_cases hJJ : J' = J
      · subst hJJ
        rw [hp] at h
        simp only [Option.some.injEq, Prod.mk.injEq] at h
        obtain ⟨rfl, rfl, rfl⟩ := h
        rw [hwq' i hi, hw1]
      · rw [hwq J' hJJ, hw1]
  · intro J' h; rw [hphe] at h; rw [hs']; exact I.noj J' h
  · rw [hs', hg']; exact hl
  · rw [hg']; exact hn
  · rw [hg']; exact hm
  · intro t' h
    rcases hlk' with h' | ⟨h', h''⟩ | ⟨h', h''⟩
    · rw [hs'] at h; simp only at h; rw [h'] at h; cases h
    · rw [hs'] at h; simp only at h; rw [h'] at h
      obtain rfl := Option.some.inj h
      exact ⟨f', st, hst', h''⟩
    · rw [hs'] at h; simp only at h; rw [h'] at h
      obtain ⟨f1, st1, h1, h2⟩ := I.lck t' h
      exact ⟨f1, st1, by rw [hst t' (by rintro rfl; exact h'' h)]; exact h1, h2⟩
  · intro h; rw [hs'] at h; simp only at h; rw [hc] at h; cases h
  · intro _; rw [hs']; exact I.trm hc
  · intro J' h; rw [hphe, hinf]; rw [hs'] at h; exact I.nxt J' h
  · rw [hs']; exact I.fin
  · intro m hm
    have : s.nm ≤ m := by rw [hs'] at hm; exact hm
    rw [hst]
    · exact I.mst m this
    · rintro rfl; have := I.mst m this; rw [hs] at this; cases this
  · intro m hm
    have : m < s.nm := by rw [hs'] at hm; exact hm
    by_cases ht : Tid.master m = t
    · rw [ht, hst']; simp
    · rw [hst _ ht]; exact I.mst' m this
  · have h1 := I.log
    constructor
    · intro J ds; rw [hphe, hinf, hlog]; exact h1.ended J ds
    · intro J i; rw [hinf, hlog]; exact h1.zero J i
    · intro J i d; rw [hinf, hlog]; exact h1.blk J i d
    · intro J i d; rw [hinf, hlog]; exact h1.ent J i d
    · intro J i; rw [hinf, hlog]; exact h1.ent' J i
    · intro J l; rw [hinf, hlog]; exact h1.ret J l
    · intro J i l; rw [hlog]; exact h1.fin J i l
    · intro J; rw [hinf, hlog]; exact h1.evs J


/-! ## Pieces of the invariant that a step leaves alone -/

theorem WInv.congr {w : ℕ} (h : WInv s g w) (ho : g'.own w = g.own w) (ha : s'.alive w = s.alive w) (hr : s'.ready w = s.ready w)
    (hd : s'.done w = s.done w) (hsl : s'.slot w = s.slot w)
    (hst : s'.stack (.wk w) = s.stack (.wk w) ∨ 2 ≤ (s.stack (.wk w)).length ∧ 2 ≤ (s'.stack (.wk w)).length)
    (hheld : ∀ t, g.own w = .held t → s'.stack t = s.stack t) (hwq : s'.wq = s.wq)
    (hasg : ∀ J i, g.own w = .asg J i → (∀ t r φ, g.ph J = some (t, r, φ) → φ.out r.blocks.length i → ∃ t r φ, g'.ph J = some (t, r, φ) ∧ φ.out r.blocks.length i) ∧
      ns s'.log J i = ns s.log J i ∧ nf s'.log J i = nf s.log J i)
    (hdy : g.own w ≠ .dying) : WInv s' g' w := by
  have hst1 : ∀ f, s.stack (.wk w) = [f] → s'.stack (.wk w) = [f] := fun f h => by
    rcases hst with h1 | h1
    · rw [h1, h]
    · rw [h] at h1; simp at h1
  cases hc : g.own w with
  | dead =>
    simp only [WInv, ho, hc, ha] at h ⊢
    refine ⟨h.1, ?_⟩
    rcases hst with h1 | h1
    · rw [h1, h.2]
    · rw [h.2] at h1; simp at h1
  | queue =>
    simp only [WInv, ho, hc, ha, hr, hd] at h ⊢
    exact ⟨h.1, h.2.1, h.2.2.1, hst1 _ h.2.2.2⟩
  | held t =>
    simp only [WInv, ho, hc, ha, hr, hd, hheld t hc] at h ⊢
    obtain ⟨h1, h2, h3, h4, f, st, h5, h6⟩ := h
    refine ⟨h1, h2, h3, hst1 _ h4, f, st, h5, ?_⟩
    cases f <;> simp only [Holds, hwq] at h6 ⊢ <;> exact h6
  | asg J i =>
    simp only [WInv, ho, hc, ha, hwq, hsl] at h ⊢
    obtain ⟨h1, h2, h3, ⟨t, r, φ, h4, h4'⟩, h5⟩ := h
    obtain ⟨q1, q2, q3⟩ := hasg J i hc
    refine ⟨h1, h2, h3, q1 t r φ h4 h4', ?_⟩
    simp only [Stage, hr, hd, q2, q3] at h5 ⊢
    rcases h5 with h | h | h | h | h
    · exact .inl ⟨h.1, h.2.1, hst1 _ h.2.2.1, h.2.2.2⟩
    · exact .inr (.inl ⟨h.1, h.2.1, hst1 _ h.2.2.1, h.2.2.2⟩)
    · refine .inr (.inr (.inl ⟨h.1, h.2.1, ?_, h.2.2.2⟩))
      rcases hst with h1 | h1
      · rw [h1]; exact h.2.2.1
      · exact h1.2
    · exact .inr (.inr (.inr (.inl ⟨h.1, h.2.1, hst1 _ h.2.2.1, h.2.2.2⟩)))
    · exact .inr (.inr (.inr (.inr ⟨h.1, h.2.1, hst1 _ h.2.2.1, h.2.2.2⟩)))
  | dying => exact absurd hc hdy

theorem JInv.congr {J : ℕ} {t' : Tid} {r : Job} {φ : Phase} (h : JInv s g J t' r φ) (hj : s'.jobs J = s.jobs J) (hi : g'.info J = g.info J)
    (hf : ∀ f ∈ s.stack t', ofJob J f → ∃ f' ∈ s'.stack t', ofJob J f')
    (hwq : s'.wq = s.wq) (how : ∀ w i, g.own w = .asg J i → g'.own w = .asg J i)
    (hn : ∀ i, ns s'.log J i = ns s.log J i ∧ nf s'.log J i = nf s.log J i) : JInv s' g' J t' r φ := by
  refine ⟨hj.trans h.job, h.ok, h.ne, hi.trans h.info, ?_, ?_, ?_⟩
  · obtain ⟨f, h1, h2⟩ := h.frm; exact hf f h1 h2
  · intro i hi
    obtain ⟨w, h1, h2⟩ := h.out i hi
    exact ⟨w, by rw [hwq, h1], how w i h2⟩
  · have := h.cnt
    cases φ <;> simp only [Cnt, hn] at this ⊢ <;> exact this

theorem ns_cons (e : Event) (l : List Event) (J i : ℕ) : ns (e :: l) J i = ns l J i + if isStart J i e then 1 else 0 := by
  simp [ns, List.countP_cons]

theorem nf_cons (e : Event) (l : List Event) (J i : ℕ) : nf (e :: l) J i = nf l J i + if e = .finish J i then 1 else 0 := by
  simp [nf, List.count_cons]

/-- the history grows by the start of block `i` of an active call -/
theorem LInv.start (h : LInv s g) {J i : ℕ} {d : SpawnData} (hlog : s'.log = .start J i d :: s.log)
    (hph : ∀ J', g'.ph J' = none → g.ph J' = none ∧ J' ≠ J) (hinf : g'.info = g.info) {ds : List SpawnData} (hi : g.info J = some ds) (hd : ds[i]? = some d) :
    LInv s' g' := by
  have hns : ∀ J', J' ≠ J → ∀ i', ns s'.log J' i' = ns s.log J' i' ∧ nf s'.log J' i' = nf s.log J' i' := by
    intro J' hJ i'
    rw [hlog, ns_cons, nf_cons]
    simp [isStart, hJ.symm]
  constructor
  · intro J' ds' h1 h2
    obtain ⟨h1, h3⟩ := hph J' h1
    rw [hinf] at h2
    intro i'
    rw [(hns J' h3 i').1, (hns J' h3 i').2]
    exact h.ended J' ds' h1 h2 i'
  · intro J' i' h1
    rw [hinf] at h1
    rw [(hns J' (by rintro rfl; rw [hi] at h1; cases h1) i').1, (hns J' (by rintro rfl; rw [hi] at h1; cases h1) i').2]
    exact h.zero J' i' h1
  · intro J' i' d' h1
    rw [hlog] at h1
    rw [hinf]
    rcases List.mem_cons.1 h1 with h1 | h1
    · injection h1 with e1 e2 e3
      subst e1 e2 e3
      exact ⟨ds, hi, hd⟩
    · exact h.blk J' i' d' h1
  · intro J' lm n h1
    rw [hlog] at h1
    rw [hinf]
    exact h.ent J' lm n (by simpa using h1)
  · intro J' ds' h1
    rw [hinf] at h1
    obtain ⟨lm, n, h2⟩ := h.ent' J' ds' h1
    exact ⟨lm, n, by rw [hlog]; exact List.mem_cons_of_mem _ h2⟩
  · intro J' l h1
    rw [hlog, List.suffix_cons_iff] at h1
    rw [hinf]
    rcases h1 with h1 | h1
    · cases h1
    · exact h.ret J' l h1
  · intro J' i' l h1
    rw [hlog, List.suffix_cons_iff] at h1
    rcases h1 with h1 | h1
    · cases h1
    · exact h.fin J' i' l h1
  · intro J' h1
    rw [hinf] at h1
    rw [hlog]
    simpa using h.evs J' h1

/-- the history grows by the end of block `i` of an active call -/
theorem LInv.finish (h : LInv s g) {J i : ℕ} (hlog : s'.log = .finish J i :: s.log)
    (hph : ∀ J', g'.ph J' = none → g.ph J' = none ∧ J' ≠ J) (hinf : g'.info = g.info) {ds : List SpawnData} (hi : g.info J = some ds)
    (hn : ns s.log J i = 1) : LInv s' g' := by
  have hns : ∀ J', J' ≠ J → ∀ i', ns s'.log J' i' = ns s.log J' i' ∧ nf s'.log J' i' = nf s.log J' i' := by
    intro J' hJ i'
    rw [hlog, ns_cons, nf_cons]
    simp [isStart, hJ.symm]
  constructor
  · intro J' ds' h1 h2
    obtain ⟨h1, h3⟩ := hph J' h1
    rw [hinf] at h2
    intro i'
    rw [(hns J' h3 i').1, (hns J' h3 i').2]
    exact h.ended J' ds' h1 h2 i'
  · intro J' i' h1
    rw [hinf] at h1
    rw [(hns J' (by rintro rfl; rw [hi] at h1; cases h1) i').1, (hns J' (by rintro rfl; rw [hi] at h1; cases h1) i').2]
    exact h.zero J' i' h1
  · intro J' i' d' h1
    rw [hlog] at h1
    rw [hinf]
    exact h.blk J' i' d' (by simpa using h1)
  · intro J' lm n h1
    rw [hlog] at h1
    rw [hinf]
    exact h.ent J' lm n (by simpa using h1)
  · intro J' ds' h1
    rw [hinf] at h1
    obtain ⟨lm, n, h2⟩ := h.ent' J' ds' h1
    exact ⟨lm, n, by rw [hlog]; exact List.mem_cons_of_mem _ h2⟩
  · intro J' l h1
    rw [hlog, List.suffix_cons_iff] at h1
    rw [hinf]
    rcases h1 with h1 | h1
    · cases h1
    · exact h.ret J' l h1
  · intro J' i' l h1
    rw [hlog, List.suffix_cons_iff] at h1
    rcases h1 with h1 | h1
    · injection h1 with e1 e2
      injection e1 with e3 e4
      subst e2 e3 e4
      exact hn
    · exact h.fin J' i' l h1
  · intro J' h1
    rw [hinf] at h1
    rw [hlog]
    simpa using h.evs J' h1

theorem ns_ret (l : List Event) (J J' i : ℕ) : ns (.ret J :: l) J' i = ns l J' i ∧ nf (.ret J :: l) J' i = nf l J' i := by
  rw [ns_cons, nf_cons]; simp [isStart]

theorem ns_enter (l : List Event) (J J' i : ℕ) (a b : ℤ) : ns (.enter J a b :: l) J' i = ns l J' i ∧ nf (.enter J a b :: l) J' i = nf l J' i := by
  rw [ns_cons, nf_cons]; simp [isStart]

/-- the history grows by the return of a call all of whose blocks have run -/
theorem LInv.returns (h : LInv s g) {J : ℕ} (hlog : s'.log = .ret J :: s.log)
    (hph : ∀ J', J' ≠ J → g'.ph J' = none → g.ph J' = none) (hinf : g'.info = g.info) {ds : List SpawnData} (hi : g.info J = some ds)
    (hn : AllRun s.log J ds) : LInv s' g' := by
  have hns : ∀ J' i', ns s'.log J' i' = ns s.log J' i' ∧ nf s'.log J' i' = nf s.log J' i' := by
    intro J' i'; rw [hlog]; exact ns_ret ..
  constructor
  · intro J' ds' h1 h2
    rw [hinf] at h2
    intro i'
    rw [(hns J' i').1, (hns J' i').2]
    by_cases hJ : J' = J
    · subst hJ; rw [hi] at h2; obtain rfl := Option.some.inj h2; exact hn i'
    · exact h.ended J' ds' (hph J' hJ h1) h2 i'
  · intro J' i' h1
    rw [hinf] at h1
    rw [(hns J' i').1, (hns J' i').2]
    exact h.zero J' i' h1
  · intro J' i' d' h1
    rw [hlog] at h1
    rw [hinf]
    exact h.blk J' i' d' (by simpa using h1)
  · intro J' lm n h1
    rw [hlog] at h1
    rw [hinf]
    exact h.ent J' lm n (by simpa using h1)
  · intro J' ds' h1
    rw [hinf] at h1
    obtain ⟨lm, n, h2⟩ := h.ent' J' ds' h1
    exact ⟨lm, n, by rw [hlog]; exact List.mem_cons_of_mem _ h2⟩
  · intro J' l h1
    rw [hlog, List.suffix_cons_iff] at h1
    rw [hinf]
    rcases h1 with h1 | h1
    · injection h1 with e1 e2
      injection e1 with e3
      subst e2 e3
      exact ⟨ds, hi, hn, h.ent' _ ds hi⟩
    · exact h.ret J' l h1
  · intro J' i' l h1
    rw [hlog, List.suffix_cons_iff] at h1
    rcases h1 with h1 | h1
    · cases h1
    · exact h.fin J' i' l h1
  · intro J' h1
    rw [hinf] at h1
    rw [hlog]
    have : J' ≠ J := by rintro rfl; rw [hi] at h1; cases h1
    simpa [this] using h.evs J' h1

/-- the history grows by a new call -/
theorem LInv.enter (h : LInv s g) {J : ℕ} {lm n : ℤ} {ds : List SpawnData} (hlog : s'.log = .enter J lm n :: s.log) (hsp : spawnLoop lm n = some ds)
    (hph : ∀ J', g'.ph J' = none → g.ph J' = none) (hinf : g'.info = Function.update g.info J (some ds)) (hi : g.info J = none)
    (hne : g'.ph J ≠ none ∨ ds = []) : LInv s' g' := by
  have hns : ∀ J' i', ns s'.log J' i' = ns s.log J' i' ∧ nf s'.log J' i' = nf s.log J' i' := by
    intro J' i'; rw [hlog]; exact ns_enter ..
  have hinf' : ∀ J', J' ≠ J → g'.info J' = g.info J' := fun J' hJ => by rw [hinf]; exact Function.update_of_ne hJ _ _
  have hinJ : g'.info J = some ds := by rw [hinf]; exact Function.update_self ..
  have hno : ∀ J', g'.info J' = none → g.info J' = none := fun J' h1 => by
    rw [← hinf' J' (by rintro rfl; rw [hinJ] at h1; cases h1)]; exact h1
  constructor
  · intro J' ds' h1 h2
    intro i'
    rw [(hns J' i').1, (hns J' i').2]
    by_cases hJ : J' = J
    · subst hJ
      rw [hinJ] at h2; obtain rfl := Option.some.inj h2
      rcases hne with hne | rfl
      · exact absurd h1 hne
      · exact ⟨fun h => absurd h (by simp), fun _ => h.zero J' i' hi⟩
    · rw [hinf' J' hJ] at h2
      exact h.ended J' ds' (hph J' h1) h2 i'
  · intro J' i' h1
    rw [(hns J' i').1, (hns J' i').2]
    exact h.zero J' i' (hno J' h1)
  · intro J' i' d' h1
    rw [hlog] at h1
    obtain ⟨ds', h2, h3⟩ := h.blk J' i' d' (by simpa using h1)
    rw [hinf' J' (by rintro rfl; rw [hi] at h2; cases h2)]
    exact ⟨ds', h2, h3⟩
  · intro J' lm' n' h1
    rw [hlog] at h1
    rcases List.mem_cons.1 h1 with h1 | h1
    · injection h1 with e1 e2 e3
      subst e1 e2 e3
      rw [hinJ, hsp]; simp
    · have := h.ent J' lm' n' h1
      rw [hinf' J' (by rintro rfl; exact this.2 hi)]
      exact this
  · intro J' ds' h1
    rw [hlog]
    by_cases hJ : J' = J
    · subst hJ; exact ⟨lm, n, by simp⟩
    · rw [hinf' J' hJ] at h1
      obtain ⟨lm, n, h2⟩ := h.ent' J' ds' h1
      exact ⟨lm, n, List.mem_cons_of_mem _ h2⟩
  · intro J' l h1
    rw [hlog, List.suffix_cons_iff] at h1
    rcases h1 with h1 | h1
    · cases h1
    · obtain ⟨ds', h2, h3⟩ := h.ret J' l h1
      exact ⟨ds', by rw [hinf' J' (by rintro rfl; rw [hi] at h2; cases h2)]; exact h2, h3⟩
  · intro J' i' l h1
    rw [hlog, List.suffix_cons_iff] at h1
    rcases h1 with h1 | h1
    · cases h1
    · exact h.fin J' i' l h1
  · intro J' h1
    rw [hlog]
    simpa using h.evs J' (hno J' h1)

theorem LInv.same (h : LInv s g) (hlog : s'.log = s.log) (hph : ∀ J', g'.ph J' = none → g.ph J' = none) (hinf : g'.info = g.info) : LInv s' g' := by
  constructor
  · intro J ds h1; rw [hinf, hlog]; exact h.ended J ds (hph J h1)
  · intro J i; rw [hinf, hlog]; exact h.zero J i
  · intro J i d; rw [hinf, hlog]; exact h.blk J i d
  · intro J i d; rw [hinf, hlog]; exact h.ent J i d
  · intro J i; rw [hinf, hlog]; exact h.ent' J i
  · intro J l; rw [hinf, hlog]; exact h.ret J l
  · intro J i l; rw [hlog]; exact h.fin J i l
  · intro J; rw [hinf, hlog]; exact h.evs J

end FFTW.Pool
