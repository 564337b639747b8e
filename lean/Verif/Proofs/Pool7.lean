import Verif.Proofs.Pool6
/-!
# The thread-pool invariant holds in every execution
-/

namespace FFTW.Pool
open FFTW.Spawn

variable {s s' : Sys} {g g' : Ghost} {t : Tid}

mutual
theorem Ret.asg_lt {J J' : ℕ} {st : List Frame} {w J0 i0 : ℕ} (h : Ret g (.wk w) J st) (ho : g.own w = .asg J0 i0) :
    J0 < J ∧ ∀ f ∈ st, ofJob J' f → J0 < J' := by
  cases h with
  | app m hm hv => cases hm
  | run hl hi hr =>
    have := hr.asg_le (J' := J') ho
    refine ⟨by omega, fun f hf hj => ?_⟩
    rcases List.mem_cons.1 hf with rfl | hf
    · obtain ⟨r, φ, h1⟩ := hj; simp [jphase] at h1
    · exact this.2 f hf hj
theorem RunOK.asg_le {J J' i : ℕ} {st : List Frame} {w J0 i0 : ℕ} (h : RunOK g (.wk w) J i st) (ho : g.own w = .asg J0 i0) :
    J0 ≤ J ∧ ∀ f ∈ st, ofJob J' f → J0 < J' := by
  cases h with
  | worker w' hw hx =>
    injection hw with e
    subst e
    rw [ho] at hx
    injection hx with e1 e2
    refine ⟨by omega, fun f hf hj => ?_⟩
    obtain ⟨r, φ, h1⟩ := hj
    obtain rfl := List.mem_singleton.1 hf
    simp [jphase] at h1
  | self r hp hi hr =>
    have := hr.asg_lt (J' := J') ho
    refine ⟨by omega, fun f hf hj => ?_⟩
    rcases List.mem_cons.1 hf with rfl | hf
    · obtain ⟨r', φ, h1⟩ := hj
      simp only [jphase, Option.some.injEq, Prod.mk.injEq] at h1
      omega
    · exact this.2 f hf hj
end

/-- calls made by a worker are younger than the call the worker serves -/
theorem Inv.nest (I : Inv s g) {w J : ℕ} {f : Frame} (hf : f ∈ s.stack (.wk w)) (hj : ofJob J f) : ∃ J0 i0, g.own w = .asg J0 i0 ∧ J0 < J := by
  have h := I.stk (.wk w)
  cases hst : s.stack (.wk w) with
  | nil => rw [hst] at hf; cases hf
  | cons f0 st =>
    rw [hst] at hf h
    have key : 2 ≤ (f0 :: st).length → ∃ J0 i0, g.own w = .asg J0 i0 := fun h2 => by
      obtain ⟨J0, i0, h3, _⟩ := I.deep (w := w) (by rw [hst]; exact h2)
      exact ⟨J0, i0, h3⟩
    cases h with
    | app m hm => cases hm
    | worker w' hw hf' =>
      obtain rfl := List.mem_singleton.1 hf
      obtain ⟨r, φ, h1⟩ := hj
      rcases hf' with rfl | rfl | rfl | rfl <;> simp [jphase] at h1
    | run hr hi =>
      obtain ⟨J0, i0, ho⟩ := key (by cases hr <;> simp)
      refine ⟨J0, i0, ho, ?_⟩
      rcases List.mem_cons.1 hf with rfl | hf
      · obtain ⟨r, φ, h1⟩ := hj; simp [jphase] at h1
      · exact (hr.asg_le ho).2 f hf hj
    | job hj' hp hx hr =>
      obtain ⟨J0, i0, ho⟩ := key (by have := hr.ne_nil; cases st <;> simp_all)
      refine ⟨J0, i0, ho, ?_⟩
      rcases List.mem_cons.1 hf with rfl | hf
      · obtain ⟨r, φ, h1⟩ := hj
        rw [h1] at hj'
        simp only [Option.some.injEq, Prod.mk.injEq] at hj'
        have := (hr.asg_lt (J' := 0) ho).1
        omega
      · exact (hr.asg_lt ho).2 f hf hj
    | kill m hm => cases hm

/-- if no application thread is inside the library, nothing is going on -/
theorem Inv.quiet (I : Inv s g) (hq : s.quiet = true) (J : ℕ) : g.ph J = none := by
  induction J using Nat.strongRecOn with
  | ind J ih =>
    cases hp : g.ph J with
    | none => rfl
    | some x =>
      obtain ⟨t, r, φ⟩ := x
      obtain ⟨f, hf, hj⟩ := (I.job J t r φ hp).frm
      exfalso
      cases t with
      | master m =>
        by_cases hm : m < s.nm
        · simp only [Sys.quiet, List.all_eq_true, List.mem_range] at hq
          have h1 := hq m hm
          split at h1
          · rename_i p hst
            rw [hst] at hf
            obtain rfl := List.mem_singleton.1 hf
            obtain ⟨r, φ, h2⟩ := hj
            simp [jphase] at h2
          · cases h1
        · rw [I.mst m (by omega)] at hf; cases hf
      | wk w =>
        obtain ⟨J0, i0, ho, hlt⟩ := I.nest hf hj
        obtain ⟨t1, r1, φ1, h1⟩ := I.asg_ph ho
        rw [ih J0 hlt] at h1; cases h1

theorem Inv.held_ph (I : Inv s g) {w : ℕ} (h : g.own w = .held t) : ∃ J x, g.ph J = some x := by
  have hw := I.wrk w
  simp only [WInv, h] at hw
  obtain ⟨_, _, _, _, f, st, h1, h2⟩ := hw
  have : ∃ x, jphase f = some x := by
    cases f <;> simp [Holds] at h2 <;> exact ⟨_, rfl⟩
  obtain ⟨⟨J, r, φ⟩, h3⟩ := this
  exact ⟨J, _, (I.top h1 h3).1⟩

/-- … and all workers are idle -/
theorem Inv.idle (I : Inv s g) (hph : ∀ J, g.ph J = none) (hc : s.cleaning = false) (w : ℕ) : g.own w = .dead ∨ g.own w = .queue := by
  cases h : g.own w with
  | dead => simp
  | queue => simp
  | held t => obtain ⟨J, x, h1⟩ := I.held_ph h; rw [hph] at h1; cases h1
  | asg J i => obtain ⟨t, r, φ, h1⟩ := I.asg_ph h; rw [hph] at h1; cases h1
  | dying => exact absurd h (I.ndying hc w)

/-- cleanup begins -/
theorem inv_cleanup (I : Inv s g) {p : Prog} {st : List Frame} (hs : s.stack t = .app (.cleanup p) :: st) (hl : s.lock = none) (hq : s.quiet = true) :
    Inv { s.put t (.killLoop :: .app p :: st) with lock := some t, cleaning := true } g := by
  have hph := I.quiet hq
  have hc : s.cleaning = false := by
    cases h : s.cleaning with
    | false => rfl
    | true => obtain ⟨-, -, k, _, _, h1, _⟩ := I.cln h; rw [hl] at h1; cases h1
  have hown := I.idle hph hc
  obtain ⟨m, hm, hv, rfl⟩ : ∃ m, t = .master m ∧ p.Valid ∧ st = [] := by
    have := I.stk t
    rw [hs] at this
    cases this with
    | app m hm hv => exact ⟨m, hm, hv, rfl⟩
    | worker w hw hf => simp at hf
    | job hj => simp [jphase] at hj
    | kill m hm hx hv => exact absurd hx (I.kx hc)
  set s' : Sys := { s.put t [.killLoop, .app p] with lock := some t, cleaning := true }
  have hst : ∀ t', t' ≠ t → s'.stack t' = s.stack t' := fun t' h => Function.update_of_ne h _ _
  have hst' : s'.stack t = [.killLoop, .app p] := Function.update_self ..
  have hx : KX s' g t .killLoop := ⟨rfl, rfl, I.trm hc, I.ndying hc⟩
  constructor
  · intro t'
    by_cases ht : t' = t
    · rw [ht, hst']; exact .kill m hm hx hv
    · rw [hst t' ht]
      refine (I.stk t').idle hph ?_ (by simp [hl])
      intro w J i h
      rcases hown w with h1 | h1 <;> rw [h] at h1 <;> cases h1
  · intro w
    have hw := I.wrk w
    have h5 : s'.stack (.wk w) = s.stack (.wk w) := hst _ (by rw [hm]; simp)
    rcases hown w with h | h <;> simp only [WInv, h, h5] at hw ⊢ <;> exact hw
  · intro J t' r φ h; rw [hph] at h; cases h
  · exact I.noj
  · exact I.lst
  · exact I.nod
  · exact I.mem
  · intro t' h
    obtain rfl := Option.some.inj h
    exact ⟨_, _, hst', trivial⟩
  · intro _
    refine ⟨hph, fun w => ?_, t, _, _, rfl, hst', hx⟩
    rcases hown w with h | h <;> simp [h]
  · intro h; cases h
  · exact I.nxt
  · exact I.fin
  · intro m' hm'
    rw [hst, I.mst m' hm']
    rintro rfl; have := I.mst m' hm'; rw [hs] at this; cases this
  · intro m' hm'
    by_cases ht : Tid.master m' = t
    · rw [ht]; show Function.update s.stack t _ t ≠ []; rw [Function.update_self]; simp
    · rw [hst _ ht]; exact I.mst' m' hm'
  · exact I.log.same rfl (fun _ h => h) rfl

/-- what a step may do -/
def Good : Res → Prop
  | .blocked => True
  | .fault => False
  | .next s' => ∃ g', Inv s' g'

theorem IsList.congr {cd cd' : ℕ → Option ℕ} {h : Option ℕ} {l : List ℕ} (hl : IsList cd h l) (he : ∀ w ∈ l, cd' w = cd w) : IsList cd' h l := by
  induction l generalizing h with
  | nil => exact hl
  | cons a l ih =>
    obtain ⟨h1, h2⟩ := hl
    exact ⟨h1, by rw [he a (by simp)]; exact ih h2 (fun w hw => he w (by simp [hw]))⟩

theorem stepJob_good (I : Inv s g) {f : Frame} {st : List Frame} (hs : s.stack t = f :: st) {x : ℕ × Job × Phase} (hj : jphase f = some x) (fresh : ℕ) :
    Good (stepJob t fresh s st f) := by
  obtain ⟨J0, r0, φ0⟩ := x
  obtain ⟨hp, hx, hr⟩ := I.top hs hj
  have hJ := I.job _ _ _ _ hp
  have hc := I.active hp
  have halive : ∀ w, g.own w = .held t → s.alive w = true := fun w h => by
    have := I.wrk w; simp only [WInv, h] at this; exact this.1
  have hq : ∀ w ∈ g.l, g.own w ≠ .held t := fun w h => by rw [(I.mem w).1 h]; simp
  cases f with
  | dist J r i =>
    simp only [jphase, Option.some.injEq, Prod.mk.injEq] at hj
    obtain ⟨rfl, rfl, rfl⟩ := hj
    simp only [FX] at hx
    simp only [stepJob]
    split
    · rename_i hi
      split
      · rename_i hn
        rw [List.getElem?_eq_none_iff] at hn; omega
      · rename_i d hd
        exact inv_distLast I hs hi hd
    · rename_i hi
      split
      · trivial
      · rename_i hl
        have hl : s.lock = none := by simpa using hl
        refine ⟨g, inv_job I hs (f' := .deqRead J r i) rfl rfl (some t) s.head s.cdr s.slot s.wq g.own g.l (.inl (.inl hl)) (.inr (.inl ⟨rfl, trivial⟩)) (fun _ _ _ => rfl) (fun _ h => h)
          (fun _ _ => rfl) (fun _ _ => rfl) (fun _ _ => rfl) (fun _ _ => rfl) rfl rfl ⟨by omega, rfl⟩ (fun w h => absurd h (I.no_held hs (by simp [Holds]) w)) I.lst I.nod I.mem⟩
  | deqRead J r i =>
    simp only [jphase, Option.some.injEq, Prod.mk.injEq] at hj
    obtain ⟨rfl, rfl, rfl⟩ := hj
    simp only [FX] at hx
    refine ⟨g, inv_job I hs (f' := .deqPop J r i s.head) rfl rfl s.lock s.head s.cdr s.slot s.wq g.own g.l (.inl (.inr hx.2)) (.inr (.inl ⟨hx.2, trivial⟩)) (fun _ _ _ => rfl) (fun _ h => h)
          (fun _ _ => rfl) (fun _ _ => rfl) (fun _ _ => rfl) (fun _ _ => rfl) rfl rfl ⟨hx.1, hx.2, rfl⟩ (fun w h => absurd h (I.no_held hs (by simp [Holds]) w)) I.lst I.nod I.mem⟩
  | deqPop J r i q =>
    simp only [jphase, Option.some.injEq, Prod.mk.injEq] at hj
    obtain ⟨rfl, rfl, rfl⟩ := hj
    simp only [FX] at hx
    have hnh := I.no_held hs (by simp [Holds])
    cases q with
    | none =>
      refine ⟨g, inv_job I hs (f' := .deqUnlock J r i none) rfl rfl s.lock s.head s.cdr s.slot s.wq g.own g.l (.inl (.inr hx.2.1)) (.inr (.inl ⟨hx.2.1, trivial⟩)) (fun _ _ _ => rfl) (fun _ h => h)
          (fun _ _ => rfl) (fun _ _ => rfl) (fun _ _ => rfl) (fun _ _ => rfl) rfl rfl ⟨hx.1, hx.2.1, by simp⟩ (fun w h => absurd h (hnh w)) I.lst I.nod I.mem⟩
    | some w =>
      obtain ⟨l, hl, hl'⟩ : ∃ l, g.l = w :: l ∧ IsList s.cdr (s.cdr w) l := by
        have := I.lst
        rw [← hx.2.2] at this
        cases hgl : g.l with
        | nil => rw [hgl] at this; simp [IsList] at this
        | cons a l =>
          rw [hgl] at this
          simp only [IsList, Option.some.injEq] at this
          obtain ⟨rfl, h⟩ := this
          exact ⟨l, rfl, h⟩
      have hqu : g.own w = .queue := (I.mem w).1 (by rw [hl]; simp)
      have hw := I.wrk w
      simp only [WInv, hqu] at hw
      have hnod := I.nod
      rw [hl, List.nodup_cons] at hnod
      simp only [stepJob, hw.1, if_true]
      have how' : Function.update g.own w (Own.held t) w = .held t := Function.update_self ..
      have hon : ∀ w', w' ≠ w → Function.update g.own w (Own.held t) w' = g.own w' := fun J' h => Function.update_of_ne h _ _
      refine ⟨{ g with own := Function.update g.own w (.held t), l := l }, inv_job I hs (f' := .deqUnlock J r i (some w)) rfl rfl s.lock (s.cdr w) s.cdr s.slot s.wq _ l
          (.inl (.inr hx.2.1)) (.inr (.inl ⟨hx.2.1, trivial⟩)) ?_ ?_
          (fun _ _ => rfl) (fun _ _ => rfl) (fun _ _ => rfl) (fun _ _ => rfl) rfl rfl ⟨hx.1, hx.2.1, ?_⟩ ?_ hl' hnod.2 ?_⟩
      · intro w' h1 _; exact hon w' (by rintro rfl; exact h1 hqu)
      · intro w' h
        by_cases hww : w' = w
        · rw [hww, how']; simp
        · rw [hon w' hww]; exact h
      · intro w' h
        obtain rfl := Option.some.inj h
        exact how'
      · intro w' h
        by_cases hww : w' = w
        · rw [hww]; rfl
        · rw [hon w' hww] at h; exact absurd h (hnh w')
      · intro w'
        by_cases h : w' = w
        · rw [h, how']; simpa using hnod.1
        · rw [hon w' h, ← I.mem, hl]; simp [h]
  | deqUnlock J r i q =>
    simp only [jphase, Option.some.injEq, Prod.mk.injEq] at hj
    obtain ⟨rfl, rfl, rfl⟩ := hj
    simp only [FX] at hx
    simp only [stepJob, hx.2.1, if_true]
    have hh : ∀ w, g.own w = .held t → q = some w := fun w h => by
      have hw := I.wrk w
      simp only [WInv, h] at hw
      obtain ⟨_, _, _, _, f1, st1, h1, h2⟩ := hw
      rw [hs] at h1; injection h1 with e1 e2; subst e1; exact h2
    cases q with
    | none =>
      refine ⟨g, inv_job I hs (f' := .create J r i) rfl rfl none s.head s.cdr s.slot s.wq g.own g.l (.inl (.inr hx.2.1)) (.inl rfl) (fun _ _ _ => rfl) (fun _ h => h)
          (fun _ _ => rfl) (fun _ _ => rfl) (fun _ _ => rfl) (fun _ _ => rfl) rfl rfl hx.1 (fun w h => absurd (hh w h) (by simp)) I.lst I.nod I.mem⟩
    | some w =>
      refine ⟨g, inv_job I hs (f' := .assign J r i w) rfl rfl none s.head s.cdr s.slot s.wq g.own g.l (.inl (.inr hx.2.1)) (.inl rfl) (fun _ _ _ => rfl) (fun _ h => h)
          (fun _ _ => rfl) (fun _ _ => rfl) (fun _ _ => rfl) (fun _ _ => rfl) rfl rfl ⟨hx.1, hx.2.2 w rfl⟩ (fun w' h => Option.some.inj (hh w' h)) I.lst I.nod I.mem⟩
  | create J r i =>
    simp only [stepJob]
    split
    · trivial
    · rename_i ha
      exact inv_create I hs (by simpa using ha)
  | assign J r i w =>
    simp only [jphase, Option.some.injEq, Prod.mk.injEq] at hj
    obtain ⟨rfl, rfl, rfl⟩ := hj
    simp only [FX] at hx
    simp only [stepJob, halive w hx.2, if_true]
    have hh : ∀ w', g.own w' = .held t → w' = w := fun w' h => by
      have hw := I.wrk w'
      simp only [WInv, h] at hw
      obtain ⟨_, _, _, _, f1, st1, h1, h2⟩ := hw
      rw [hs] at h1; injection h1 with e1 e2; subst e1; exact h2.symm
    by_cases hlk : s.lock = some t
    · obtain ⟨f1, st1, h1, h2⟩ := I.lck t hlk
      rw [hs] at h1; injection h1 with e1 e2; subst e1; exact absurd h2 (by simp [crit])
    have hwq1 : Function.update s.wq J (Function.update (s.wq J) i (some w)) J i = some w := by simp
    refine ⟨g, inv_job I hs (f' := .upReady J r i) rfl rfl s.lock s.head s.cdr (Function.update s.slot w (some (.work J i)))
      (Function.update s.wq J (Function.update (s.wq J) i (some w))) g.own g.l (.inr ⟨rfl, rfl⟩) (.inr (.inr ⟨rfl, hlk⟩)) (fun _ _ _ => rfl) (fun _ h => h)
      (fun J' h => Function.update_of_ne h _ _) ?_ ?_ (fun _ _ => rfl) rfl rfl ⟨hx.1, w, hwq1, hx.2, Function.update_self ..⟩ ?_ I.lst I.nod I.mem⟩
    · intro i' h
      simp only [Phase.out] at h
      rw [Function.update_self, Function.update_of_ne (by omega)]
    · intro w' h; exact Function.update_of_ne (by rintro rfl; exact h hx.2) _ _
    · intro w' h; rw [hh w' h]; exact hwq1
  | upReady J r i =>
    simp only [jphase, Option.some.injEq, Prod.mk.injEq] at hj
    obtain ⟨rfl, rfl, rfl⟩ := hj
    obtain ⟨hx1, w, hw, how, hsl⟩ := hx
    simp only [stepJob, hw, halive w how, if_true]
    exact inv_upReady I hs hw
  | coll J r i =>
    simp only [jphase, Option.some.injEq, Prod.mk.injEq] at hj
    obtain ⟨rfl, rfl, rfl⟩ := hj
    simp only [FX] at hx
    simp only [stepJob]
    split
    · rename_i hi; exact inv_ret I hs hi
    · rename_i hi
      obtain ⟨w, hw, how⟩ := hJ.out i (by simp only [Phase.out]; omega)
      have ha := (I.asg_phase how hp).2.2.2.1
      simp only [hw, ha, if_true]
      split
      · trivial
      · rename_i hd; exact inv_down I hs hi hw hd
  | enqLock J r i w =>
    simp only [jphase, Option.some.injEq, Prod.mk.injEq] at hj
    obtain ⟨rfl, rfl, rfl⟩ := hj
    simp only [FX] at hx
    simp only [stepJob]
    split
    · trivial
    · rename_i hl
      have hl : s.lock = none := by simpa using hl
      have hh : ∀ w', g.own w' = .held t → w = w' := fun w' h => by
        have hw := I.wrk w'
        simp only [WInv, h] at hw
        obtain ⟨_, _, _, _, f1, st1, h1, h2⟩ := hw
        rw [hs] at h1; injection h1 with e1 e2; subst e1; exact h2
      refine ⟨g, inv_job I hs (f' := .enqLink J r i w) rfl rfl (some t) s.head s.cdr s.slot s.wq g.own g.l (.inl (.inl hl)) (.inr (.inl ⟨rfl, trivial⟩)) (fun _ _ _ => rfl) (fun _ h => h)
          (fun _ _ => rfl) (fun _ _ => rfl) (fun _ _ => rfl) (fun _ _ => rfl) rfl rfl ⟨hx.1, hx.2, rfl⟩ hh I.lst I.nod I.mem⟩
  | enqLink J r i w =>
    simp only [jphase, Option.some.injEq, Prod.mk.injEq] at hj
    obtain ⟨rfl, rfl, rfl⟩ := hj
    simp only [FX] at hx
    simp only [stepJob, halive w hx.2.1, if_true]
    have hh : ∀ w', g.own w' = .held t → w = w' := fun w' h => by
      have hw := I.wrk w'
      simp only [WInv, h] at hw
      obtain ⟨_, _, _, _, f1, st1, h1, h2⟩ := hw
      rw [hs] at h1; injection h1 with e1 e2; subst e1; exact h2
    refine ⟨g, inv_job I hs (f' := .enqSet J r i w) rfl rfl s.lock s.head (Function.update s.cdr w s.head) s.slot s.wq g.own g.l (.inl (.inr hx.2.2)) (.inr (.inl ⟨hx.2.2, trivial⟩))
          (fun _ _ _ => rfl) (fun _ h => h)
          (fun _ _ => rfl) (fun _ _ => rfl) (fun _ _ => rfl) ?_ rfl rfl ⟨hx.1, hx.2.1, hx.2.2, Function.update_self ..⟩ hh ?_ I.nod I.mem⟩
    · intro w' h; exact Function.update_of_ne (by rintro rfl; exact h hx.2.1) _ _
    · refine I.lst.congr (fun w' h => Function.update_of_ne ?_ _ _)
      rintro rfl; exact hq w' h hx.2.1
  | enqSet J r i w =>
    simp only [jphase, Option.some.injEq, Prod.mk.injEq] at hj
    obtain ⟨rfl, rfl, rfl⟩ := hj
    simp only [FX] at hx
    have hh : ∀ w', g.own w' = .held t → w = w' := fun w' h => by
      have hw := I.wrk w'
      simp only [WInv, h] at hw
      obtain ⟨_, _, _, _, f1, st1, h1, h2⟩ := hw
      rw [hs] at h1; injection h1 with e1 e2; subst e1; exact h2
    have how' : Function.update g.own w Own.queue w = .queue := Function.update_self ..
    have hon : ∀ w', w' ≠ w → Function.update g.own w Own.queue w' = g.own w' := fun J' h => Function.update_of_ne h _ _
    refine ⟨{ g with own := Function.update g.own w .queue, l := w :: g.l }, inv_job I hs (f' := .enqUnlock J r i) rfl rfl s.lock (some w) s.cdr s.slot s.wq _ (w :: g.l)
          (.inl (.inr hx.2.2.1)) (.inr (.inl ⟨hx.2.2.1, trivial⟩)) ?_ ?_
          (fun _ _ => rfl) (fun _ _ => rfl) (fun _ _ => rfl) (fun _ _ => rfl) rfl rfl ⟨hx.1, hx.2.2.1⟩ ?_ ⟨rfl, by rw [hx.2.2.2]; exact I.lst⟩ ?_ ?_⟩
    · intro w' _ h1; exact hon w' (by rintro rfl; exact h1 hx.2.1)
    · intro w' h
      by_cases hww : w' = w
      · rw [hww, how']; simp
      · rw [hon w' hww]; exact h
    · intro w' h
      by_cases hww : w' = w
      · rw [hww, how'] at h; cases h
      · rw [hon w' hww] at h; exact absurd (hh w' h).symm hww
    · rw [List.nodup_cons]; exact ⟨fun h => hq w h hx.2.1, I.nod⟩
    · intro w'
      by_cases h : w' = w
      · rw [h, how']; simp
      · rw [hon w' h, ← I.mem]; simp [h]
  | enqUnlock J r i =>
    simp only [jphase, Option.some.injEq, Prod.mk.injEq] at hj
    obtain ⟨rfl, rfl, rfl⟩ := hj
    simp only [FX] at hx
    simp only [stepJob, hx.2, if_true]
    refine ⟨g, inv_job I hs (f' := .coll J r (i + 1)) rfl rfl none s.head s.cdr s.slot s.wq g.own g.l (.inl (.inr hx.2)) (.inl rfl) (fun _ _ _ => rfl) (fun _ h => h)
          (fun _ _ => rfl) (fun _ _ => rfl) (fun _ _ => rfl) (fun _ _ => rfl) rfl rfl (by simp only [FX]; omega) (fun w h => absurd h (I.no_held hs (by simp [Holds]) w)) I.lst I.nod I.mem⟩
  | _ => simp [jphase] at hj

end FFTW.Pool
