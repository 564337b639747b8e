import Verif.Proofs.Pool5
/-!
# The thread-pool invariant holds in every execution
-/

namespace FFTW.Pool
open FFTW.Spawn

variable {s s' : Sys} {g g' : Ghost} {t : Tid}

theorem Inv.kill_top (I : Inv s g) {f : Frame} {st : List Frame} (hs : s.stack t = f :: st)
    (hf : f = .killLoop ∨ (∃ w, f = .killUp w) ∨ (∃ w, f = .killDown w) ∨ ∃ w, f = .killFree w) :
    ∃ m p, t = .master m ∧ st = [.app p] ∧ p.Valid ∧ KX s g t f := by
  have := I.stk t
  rw [hs] at this
  rcases hf with rfl | ⟨w, rfl⟩ | ⟨w, rfl⟩ | ⟨w, rfl⟩ <;> cases this with
  | job hj => simp [jphase] at hj
  | worker w hw hf => simp at hf
  | kill m hm hx hv => exact ⟨m, _, hm, rfl, hv, hx⟩

/-- the killer's frame names the dying worker -/
theorem Inv.dying_uniq (I : Inv s g) {f : Frame} {st : List Frame} (hs : s.stack t = f :: st) (hl : s.lock = some t) {w0 : ℕ}
    (hf : f = .killUp w0 ∨ f = .killDown w0 ∨ f = .killFree w0) (w : ℕ) (h : g.own w = .dying) : w = w0 := by
  have hw := I.wrk w
  simp only [WInv, h] at hw
  obtain ⟨_, _, _, t1, f1, st1, h1, h2, h3⟩ := hw
  rw [hl] at h1
  obtain rfl := Option.some.inj h1
  rw [hs] at h2
  injection h2 with e1 e2
  subst e1
  rcases hf with rfl | rfl | rfl <;> simp at h3 <;> exact h3.symm

theorem Inv.own_cln (I : Inv s g) (hc : s.cleaning = true) (w : ℕ) (J i : ℕ) : g.own w ≠ .asg J i := fun h => by
  rcases (I.cln hc).2.1 w with h1 | h1 | h1 <;> rw [h] at h1 <;> cases h1

/-- the last worker is gone -/
theorem inv_killEnd (I : Inv s g) {st : List Frame} (hs : s.stack t = .killLoop :: st) (hh : s.head = none) :
    (∀ w, s.alive w = false ∧ s.stack (.wk w) = []) ∧ Inv { s.put t st with lock := none, cleaning := false } g := by
  obtain ⟨m, p, hm, rfl, hv, hlk, hc, ht0, hnd⟩ := I.kill_top hs (.inl rfl)
  obtain ⟨hph, how, -⟩ := I.cln hc
  have hl : g.l = [] := by
    have := I.lst
    rw [hh] at this
    cases hgl : g.l with
    | nil => rfl
    | cons a l => rw [hgl] at this; simp [IsList] at this
  have hdead : ∀ w, g.own w = .dead := fun w => by
    rcases how w with h | h | h
    · exact h
    · have := (I.mem w).2 h; rw [hl] at this; simp at this
    · exact absurd h (hnd w)
  have hw0 : ∀ w, s.alive w = false ∧ s.stack (.wk w) = [] := fun w => by
    have := I.wrk w
    simp only [WInv, hdead w] at this; exact this
  refine ⟨hw0, ?_⟩
  set s' : Sys := { s.put t [.app p] with lock := none, cleaning := false }
  have hst : ∀ t', t' ≠ t → s'.stack t' = s.stack t' := fun t' h => Function.update_of_ne h _ _
  constructor
  · intro t'
    by_cases ht : t' = t
    · have : s'.stack t = [.app p] := Function.update_self ..
      rw [ht, this]; exact .app m hm hv
    · rw [hst t' ht]
      exact (I.stk t').idle hph (I.own_cln hc) (by rintro ⟨h, -⟩; rw [hlk] at h; exact ht (Option.some.inj h).symm)
  · intro w
    simp only [WInv, hdead w]
    refine ⟨(hw0 w).1, ?_⟩
    rw [hst _ (by rw [hm]; simp)]; exact (hw0 w).2
  · intro J t' r φ h; rw [hph] at h; cases h
  · exact I.noj
  · exact I.lst
  · exact I.nod
  · exact I.mem
  · intro t' h; cases h
  · intro h; cases h
  · intro _; exact ht0
  · exact I.nxt
  · exact I.fin
  · intro m' hm'
    rw [hst, I.mst m' hm']
    rintro rfl; have := I.mst m' hm'; rw [hs] at this; cases this
  · intro m' hm'
    by_cases ht : Tid.master m' = t
    · rw [ht]; show Function.update s.stack t _ t ≠ []; rw [Function.update_self]; simp
    · rw [hst _ ht]; exact I.mst' m' hm'
  · exact I.log.same rfl (fun _ h => h) rfl

/-- a worker is taken from the queue to be terminated -/
theorem inv_killPop (I : Inv s g) {st : List Frame} (hs : s.stack t = .killLoop :: st) {w : ℕ} (hh : s.head = some w) :
    s.alive w = true ∧ ∃ g', Inv { s.put t (.killUp w :: st) with head := s.cdr w, slot := Function.update s.slot w (some .kill) } g' := by
  obtain ⟨m, p, hm, rfl, hv, hlk, hc, ht0, hnd⟩ := I.kill_top hs (.inl rfl)
  obtain ⟨l, hl, hl'⟩ : ∃ l, g.l = w :: l ∧ IsList s.cdr (s.cdr w) l := by
    have := I.lst
    rw [hh] at this
    cases hgl : g.l with
    | nil => rw [hgl] at this; simp [IsList] at this
    | cons a l =>
      rw [hgl] at this
      simp only [IsList, Option.some.injEq] at this
      obtain ⟨rfl, h⟩ := this
      exact ⟨l, rfl, h⟩
  have hq : g.own w = .queue := (I.mem w).1 (by rw [hl]; simp)
  have hw := I.wrk w
  simp only [WInv, hq] at hw
  have hnod := I.nod
  rw [hl, List.nodup_cons] at hnod
  refine ⟨hw.1, ⟨{ g with own := Function.update g.own w .dying, l := l }, ?_⟩⟩
  set s' : Sys := { s.put t (.killUp w :: [.app p]) with head := s.cdr w, slot := Function.update s.slot w (some .kill) }
  set g' : Ghost := { g with own := Function.update g.own w .dying, l := l }
  have how' : g'.own w = .dying := Function.update_self ..
  have hon : ∀ w', w' ≠ w → g'.own w' = g.own w' := fun J' h => Function.update_of_ne h _ _
  have hsw : s'.stack (.wk w) = [.wait] := by
    show Function.update s.stack t _ _ = _
    rw [Function.update_of_ne (by rw [hm]; simp), hw.2.2.2]
  have hst' : s'.stack t = [.killUp w, .app p] := Function.update_self ..
  refine inv_cln I hc (s' := s') (g' := g') hc hlk hlk (w0 := w) (f := .killUp w) hm hv rfl rfl rfl rfl rfl rfl (fun t' h _ => Function.update_of_ne h _ _) hst' (by rw [hs]; simp)
    ⟨hlk, hc, ht0, how', hw.2.1, hsw⟩ trivial (by rw [hsw]; exact .worker w rfl (by simp)) (fun w' h => ⟨hon w' h, rfl, rfl, rfl⟩) (.inr how') ?_ (fun w' h => absurd h (hnd w'))
    hl' hnod.2 ?_
  · simp only [WInv, how']
    exact ⟨hw.1, Function.update_self .., hw.2.2.1, t, _, _, hlk, hst', .inl rfl⟩
  · intro w'
    by_cases h : w' = w
    · rw [h, how']; simpa using hnod.1
    · rw [hon w' h, ← I.mem, hl]; simp [g', h]

theorem inv_killUp (I : Inv s g) {st : List Frame} {w : ℕ} (hs : s.stack t = .killUp w :: st) :
    s.alive w = true ∧ Inv { s.put t (.killDown w :: st) with ready := Function.update s.ready w (s.ready w + 1) } g := by
  obtain ⟨m, p, hm, rfl, hv, hlk, hc, ht0, hd, hr, hsw0⟩ := I.kill_top hs (.inr (.inl ⟨w, rfl⟩))
  have hw := I.wrk w
  simp only [WInv, hd] at hw
  refine ⟨hw.1, ?_⟩
  set s' : Sys := { s.put t (.killDown w :: [.app p]) with ready := Function.update s.ready w (s.ready w + 1) }
  have hsw : s'.stack (.wk w) = [.wait] := by
    show Function.update s.stack t _ _ = _
    rw [Function.update_of_ne (by rw [hm]; simp), hsw0]
  have hst' : s'.stack t = [.killDown w, .app p] := Function.update_self ..
  have hrd : s'.ready w = 1 := by
    show Function.update s.ready w _ w = 1
    rw [Function.update_self, hr]
  refine inv_cln I hc (s' := s') (g' := g) hc hlk hlk (w0 := w) (f := .killDown w) hm hv rfl rfl rfl rfl rfl rfl (fun t' h _ => Function.update_of_ne h _ _) hst' (by rw [hs]; simp)
    ⟨hlk, hc, hd, .inl ⟨ht0, .inl ⟨hrd, hsw⟩⟩⟩ trivial (by rw [hsw]; exact .worker w rfl (by simp))
    (fun w' h => ⟨rfl, rfl, Function.update_of_ne h _ _, rfl⟩) (.inr hd) ?_ (I.dying_uniq hs hlk (.inl rfl)) I.lst I.nod I.mem
  simp only [WInv, hd]
  exact ⟨hw.1, hw.2.1, hw.2.2.1, t, _, _, hlk, hst', .inr (.inl rfl)⟩

theorem inv_killDown (I : Inv s g) {st : List Frame} {w : ℕ} (hs : s.stack t = .killDown w :: st) (ht : s.term ≠ 0) :
    Inv { s.put t (.killFree w :: st) with term := s.term - 1 } g := by
  obtain ⟨m, p, hm, rfl, hv, hlk, hc, hd, h⟩ := I.kill_top hs (.inr (.inr (.inl ⟨w, rfl⟩)))
  have hw := I.wrk w
  simp only [WInv, hd] at hw
  obtain ⟨ht1, hsw0⟩ : s.term = 1 ∧ s.stack (.wk w) = [] := by
    rcases h with h | h
    · exact absurd h.1 ht
    · exact h
  set s' : Sys := { s.put t (.killFree w :: [.app p]) with term := s.term - 1 }
  have hsw : s'.stack (.wk w) = [] := by
    show Function.update s.stack t _ _ = _
    rw [Function.update_of_ne (by rw [hm]; simp), hsw0]
  have hst' : s'.stack t = [.killFree w, .app p] := Function.update_self ..
  have htm : s'.term = 0 := by
    show s.term - 1 = 0
    rw [ht1]
  refine inv_cln I hc (s' := s') (g' := g) hc hlk hlk (w0 := w) (f := .killFree w) hm hv rfl rfl rfl rfl rfl rfl (fun t' h _ => Function.update_of_ne h _ _) hst' (by rw [hs]; simp)
    ⟨hlk, hc, htm, hd, hsw⟩ trivial (by rw [hsw]; exact .nil)
    (fun w' h => ⟨rfl, rfl, rfl, rfl⟩) (.inr hd) ?_ (I.dying_uniq hs hlk (.inr (.inl rfl))) I.lst I.nod I.mem
  simp only [WInv, hd]
  exact ⟨hw.1, hw.2.1, hw.2.2.1, t, _, _, hlk, hst', .inr (.inr rfl)⟩

theorem inv_killFree (I : Inv s g) {st : List Frame} {w : ℕ} (hs : s.stack t = .killFree w :: st) :
    s.alive w = true ∧ ∃ g', Inv { s.put t (.killLoop :: st) with alive := Function.update s.alive w false } g' := by
  obtain ⟨m, p, hm, rfl, hv, hlk, hc, ht0, hd, hsw0⟩ := I.kill_top hs (.inr (.inr (.inr ⟨w, rfl⟩)))
  have hw := I.wrk w
  simp only [WInv, hd] at hw
  have huni := I.dying_uniq hs hlk (.inr (.inr rfl))
  refine ⟨hw.1, ⟨{ g with own := Function.update g.own w .dead }, ?_⟩⟩
  set s' : Sys := { s.put t (.killLoop :: [.app p]) with alive := Function.update s.alive w false }
  set g' : Ghost := { g with own := Function.update g.own w .dead }
  have how' : g'.own w = .dead := Function.update_self ..
  have hon : ∀ w', w' ≠ w → g'.own w' = g.own w' := fun J' h => Function.update_of_ne h _ _
  have hsw : s'.stack (.wk w) = [] := by
    show Function.update s.stack t _ _ = _
    rw [Function.update_of_ne (by rw [hm]; simp), hsw0]
  have hst' : s'.stack t = [.killLoop, .app p] := Function.update_self ..
  refine inv_cln I hc (s' := s') (g' := g') hc hlk hlk (w0 := w) (f := .killLoop) hm hv rfl rfl rfl rfl rfl rfl (fun t' h _ => Function.update_of_ne h _ _) hst' (by rw [hs]; simp)
    ⟨hlk, hc, ht0, ?_⟩ trivial (by rw [hsw]; exact .nil) (fun w' h => ⟨hon w' h, Function.update_of_ne h _ _, rfl, rfl⟩) (.inl how') ?_ huni
    I.lst I.nod ?_
  · intro w' h
    by_cases hww : w' = w
    · rw [hww, how'] at h; cases h
    · rw [hon w' hww] at h; exact hww (huni w' h)
  · simp only [WInv, how']
    exact ⟨Function.update_self .., hsw⟩
  · intro w'
    by_cases h : w' = w
    · rw [h, how']
      have := I.mem w
      rw [hd] at this
      simpa using this
    · rw [hon w' h]; exact I.mem w'

/-- where the killer of a dying worker stands -/
theorem Inv.killer (I : Inv s g) {w : ℕ} (hd : g.own w = .dying) : s.cleaning = true ∧ ∃ k m p f, k = .master m ∧ p.Valid ∧ s.lock = some k ∧ s.stack k = [f, .app p] ∧
    (f = .killUp w ∨ f = .killDown w ∨ f = .killFree w) ∧ KX s g k f := by
  have hw := I.wrk w
  simp only [WInv, hd] at hw
  obtain ⟨_, _, _, k, f, st, h1, h2, h3⟩ := hw
  obtain ⟨m, p, hm, rfl, hv, hx⟩ := I.kill_top h2 (by rcases h3 with rfl | rfl | rfl <;> simp)
  exact ⟨hx.2.1, k, m, p, f, hm, hv, h1, h2, h3, hx⟩

/-- a dying worker that has not yet exited is awaited -/
theorem Inv.killer_down (I : Inv s g) {w : ℕ} (hd : g.own w = .dying) (hs : s.stack (.wk w) ≠ []) (hr : s.ready w ≠ 0 ∨ s.stack (.wk w) ≠ [.wait]) :
    s.cleaning = true ∧ ∃ k m p, k = .master m ∧ p.Valid ∧ s.lock = some k ∧ s.stack k = [.killDown w, .app p] ∧ KX s g k (.killDown w) := by
  obtain ⟨hc, k, m, p, f, hm, hv, hl, hsk, hf, hx⟩ := I.killer hd
  refine ⟨hc, k, m, p, hm, hv, hl, ?_⟩
  rcases hf with rfl | rfl | rfl
  · have := hx.2.2
    simp only at this
    rcases hr with h | h
    · exact absurd this.2.2.1 h
    · exact absurd this.2.2.2 h
  · exact ⟨hsk, hx⟩
  · have := hx.2.2
    simp only at this
    exact absurd this.2.2 hs

/-- steps of a dying worker -/
theorem inv_dying (I : Inv s g) {w rd tm : ℕ} {st' : List Frame} (hd : g.own w = .dying) (hs : s.stack (.wk w) ≠ []) (hr : s.ready w ≠ 0 ∨ s.stack (.wk w) ≠ [.wait])
    (h : tm = 0 ∧ rd = 0 ∧ (st' = [.fetch] ∨ st' = [.exit]) ∨ tm = 1 ∧ st' = []) :
    Inv { s.put (.wk w) st' with ready := Function.update s.ready w rd, term := tm } g := by
  obtain ⟨hc, k, m, p, hm, hv, hlk, hsk, hx⟩ := I.killer_down hd hs hr
  have hw := I.wrk w
  simp only [WInv, hd] at hw
  have hkw : k ≠ .wk w := by rw [hm]; simp
  set s' : Sys := { s.put (.wk w) st' with ready := Function.update s.ready w rd, term := tm }
  have hsw : s'.stack (.wk w) = st' := Function.update_self ..
  have hrd : s'.ready w = rd := Function.update_self ..
  have hst' : s'.stack k = [.killDown w, .app p] := by
    show Function.update s.stack (.wk w) _ _ = _
    rw [Function.update_of_ne hkw, hsk]
  refine inv_cln I hc (s' := s') (g' := g) hc hlk hlk (w0 := w) (f := .killDown w) hm hv rfl rfl rfl rfl rfl rfl (fun t' _ h => Function.update_of_ne h _ _) hst' (by rw [hsk]; simp)
    ⟨hlk, hc, hd, ?_⟩ trivial ?_
    (fun w' h => ⟨rfl, rfl, Function.update_of_ne h _ _, rfl⟩) (.inr hd) ?_ (I.dying_uniq hsk hlk (.inr (.inl rfl))) I.lst I.nod I.mem
  · rw [hsw, hrd]
    rcases h with ⟨h1, h2, h3 | h3⟩ | ⟨h1, h2⟩
    · exact .inl ⟨h1, .inr (.inl ⟨h2, h3⟩)⟩
    · exact .inl ⟨h1, .inr (.inr ⟨h2, h3⟩)⟩
    · exact .inr ⟨h1, h2⟩
  · rw [hsw]
    rcases h with ⟨h1, h2, h3 | h3⟩ | ⟨h1, h2⟩
    · rw [h3]; exact .worker w rfl (by simp)
    · rw [h3]; exact .worker w rfl (by simp)
    · rw [h2]; exact .nil
  · simp only [WInv, hd]
    exact ⟨hw.1, hw.2.1, hw.2.2.1, k, _, _, hlk, hst', .inr (.inl rfl)⟩

end FFTW.Pool
