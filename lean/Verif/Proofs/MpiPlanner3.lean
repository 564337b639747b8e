import Verif.Proofs.MpiPlanner2
import Verif.Proofs.MpiRecurse

/-! planning in step: solvers -/

namespace FFTW.Mpi
open FFTW.Planner

/-- What the planner asks of the `mkplan` of an MPI solver run by the processes `c`: each of them takes part in serial planning, groups of processes are within `c`, not empty, and have no process in common. -/
def MMk.Fits (c : Comm) {α : Type} : MMk α → Prop
  | .ret _ => True
  | .loc n _ m k => n = c.length ∧ m.nthr = none ∧ ∀ r, (k r).Fits c
  | .grp n p m k => MPlanner.groupsOk c n p ∧ m.nthr = none ∧ (∀ i < n, ∀ x, p i = some x → MPlanner.commOf x ≠ [] ∧ (MPlanner.commOf x).Nodup) ∧ ∀ r, (k r).Fits c

/-- so do all plans it makes -/
def MSolver.Fits (s : MSolver) : Prop := ∀ p fl, MPlanner.commOf p ≠ [] → (MPlanner.commOf p).Nodup → (s.mkplan p fl).Fits (MPlanner.commOf p)

namespace MPlanner

/-- plans the serial planner of some process can return -/
def LocalPlans (E : MEnv) (fl : Flags) (x : Problem) (c : Plan) : Prop :=
  ∃ w n st st', (LEQ st.flags.l st.flags.u = true ∨ st.wstate = .only ∨ st.wstate = .bogus) ∧ st.flags.l = fl.l ∧ Planner.mkplan (E.env w) n x st = .ok (some c, st')

/-- the planner may be called: the assertion of kernel/planner.c:638, needed only when searching is possible -/
def PreF (fl : Flags) (W : WState) : Prop := LEQ fl.l fl.u = true ∨ W = .only ∨ W = .bogus

variable {c : Comm} {fl : Flags} {W : WState} {s0 sts : PSts} {E : MEnv}

theorem pre_of (hp : PreF fl W) {st : PSt} (hs : st.seen = fl) (hw : st.wstate = W ∨ st.wstate = .bogus) : Pre st := by
  rcases hw with hw | hw
  · rcases hp with hp | hp | hp
    · left
      rw [show st.flags.l = fl.l from congrArg Flags.l hs, show st.flags.u = fl.u from congrArg Flags.u hs]; exact hp
    · right; left; rw [hw, hp]
    · right; right; rw [hw, hp]
  · right; right; exact hw

theorem serialPlan_ok (hl : ∀ w t, (E.env w).world.late t = false) {n : ℕ} {p : Option Problem} {m : FMod} {w : ℕ} {st : PSt} (hp : PreF fl W) (hs : st.seen = fl) (ht : fl.tli = 0)
    (hm : m.nthr = none) (hw : st.wstate = W ∨ st.wstate = .bogus) (h0 : st.timedOut = false) {r : Option Plan} {st' : PSt} (h : serialPlan E n p m w st = .ok (r, st')) :
    st'.seen = fl ∧ (st'.wstate = W ∨ st'.wstate = .bogus) ∧ st'.timedOut = false ∧ ∀ x pl, p = some x → r = some pl → LocalPlans E (fl.modify m) x pl := by
  unfold serialPlan at h
  cases p with
  | none =>
    simp only [Except.ok.injEq, Prod.mk.injEq] at h
    obtain ⟨rfl, rfl⟩ := h
    exact ⟨hs, hw, h0, fun x pl e => by simp at e⟩
  | some x =>
    simp only at h
    have hnt := mkplanFD_nt (mkplan_nt (hl w) n) h h0
    have hpre := pre_of hp hs hw
    have htli : st.flags.tli = 0 := (congrArg Flags.tli hs).trans ht
    have key : st'.seen = st.seen ∧ (st'.wstate = st.wstate ∨ st'.wstate = .bogus) ∧ ∀ pl, r = some pl → LocalPlans E (fl.modify m) x pl := by
      unfold Planner.mkplanFD at h
      rw [hm] at h
      simp only [Option.getD_none] at h
      split at h
      · rename_i hz
        have := mkplan_ok (E.env w) n x { st with nthr := st.nthr } r st' hpre h
        have htl : st'.flags.tli = st.flags.tli := by
          rcases this.tli with e | e
          · exact e
          · exact e.2.trans htli.symm
        refine ⟨?_, this.keep.wst, fun pl e => ⟨w, n, _, st', hpre, ?_, by rw [← e]; exact h⟩⟩
        · unfold PSt.seen
          rw [this.keep.l, this.keep.u, htl, this.nthr]
        · show st.flags.l = (fl.l &&& ~~~ m.ureset) ||| m.lset
          rw [hz.1, hz.2.2, and_not_zero]; exact congrArg Flags.l hs
      · cases hrec : Planner.mkplan (E.env w) n x { st with nthr := st.nthr, flags := { st.flags with
          l := (st.flags.l &&& ~~~ m.ureset) ||| m.lset
          u := (st.flags.u &&& ~~~ m.ureset) ||| (m.uset ||| m.lset) } } with
        | error e => simp only at hrec; rw [hrec] at h; simp [bind, Except.bind] at h
        | ok y =>
          obtain ⟨r1, st1⟩ := y
          simp only at hrec
          rw [hrec] at h
          simp only [bind, Except.bind, pure, Except.pure, Except.ok.injEq, Prod.mk.injEq] at h
          obtain ⟨rfl, rfl⟩ := h
          have hpre' : Pre { st with nthr := st.nthr, flags := { st.flags with
              l := (st.flags.l &&& ~~~ m.ureset) ||| m.lset
              u := (st.flags.u &&& ~~~ m.ureset) ||| (m.uset ||| m.lset) } } := by
            rcases hpre with hp | hp
            · exact Or.inl (LEQ_modify hp)
            · exact Or.inr hp
          have := mkplan_ok (E.env w) n x _ _ _ hpre' hrec
          refine ⟨?_, this.keep.wst, fun pl e => ⟨w, n, _, st1, hpre', ?_, by rw [← e]; exact hrec⟩⟩
          · unfold PSt.seen
            simp only
            rw [this.nthr]
          · show (st.flags.l &&& ~~~ m.ureset) ||| m.lset = (fl.l &&& ~~~ m.ureset) ||| m.lset
            rw [show st.flags.l = fl.l from congrArg Flags.l hs]
    refine ⟨key.1.trans hs, ?_, hnt, fun x' pl e1 e2 => by obtain rfl := Option.some.inj e1; exact key.2.2 pl e2⟩
    rcases key.2.1 with e | e
    · rw [e]; exact hw
    · exact Or.inr e

/-- `fl` after `PLNR_TIMELIMIT_IMPATIENCE(ego) = 0` when estimating -/
def canon (fl : Flags) : Flags := if fl.u &&& ESTIMATE ≠ 0 then { fl with tli := 0 } else fl

theorem canon_tli (h : fl.tli = 0) : canon fl = fl := by
  unfold canon
  split
  · rw [← h]
  · rfl

/-- the result of planning `p` -/
structure PostR (S : MSolver → Prop) (E : MEnv) (d : ℕ) (p : MProblem) (fl : Flags) (W : WState) (s0 : PSts) (r : Option MPlan × PSts) : Prop where
  sync : Sync (commOf p) (canon fl) W s0 r.2
  same : ∃ W', ∀ w ∈ commOf p, (r.2 w).wstate = W'
  plan : ∀ f, r.1 = some f → MPlans S (LocalPlans E) d fl p f

/-- planning meets its specification -/
def RecOk (S : MSolver → Prop) (E : MEnv) (d : ℕ) (rec : MRec) : Prop :=
  ∀ p sts fl W, commOf p ≠ [] → (commOf p).Nodup → PreF fl W → Sync (commOf p) fl W sts sts → Ok (rec p sts) (PostR S E d p fl W sts)

variable {S : MSolver → Prop} {d n : ℕ} {rec : MRec}

theorem mkplanFD_ok (hr : RecOk S E d rec) {x : MProblem} {m : FMod} (hm : m.nthr = none) (hx : commOf x ≠ [] ∧ (commOf x).Nodup) (hsub : ∀ w ∈ commOf x, w ∈ c)
    (hp : PreF fl W) (ht : fl.tli = 0) (hs : Sync c fl W s0 sts) :
    Ok (mkplanFD rec x m sts) fun r => Sync c fl W s0 r.2 ∧ ∀ f, r.1 = some f → MPlans S (LocalPlans E) d (fl.modify m) x f := by
  unfold mkplanFD
  rw [hm]
  simp only [Option.getD_none]
  set sts1 := upd (commOf x) (fun _ st => { st with nthr := st.nthr }) sts with hs1
  have e1 : sts1 = sts := by
    funext w
    rw [hs1]
    by_cases hw : w ∈ commOf x
    · rw [upd_in hw]
    · rw [upd_out hw]
  rw [e1]
  set sts2 := upd (commOf x) (fun _ st => { st with flags := { st.flags with
    l := (st.flags.l &&& ~~~ m.ureset) ||| m.lset
    u := (st.flags.u &&& ~~~ m.ureset) ||| (m.uset ||| m.lset) } }) sts with hs2
  have hpm : PreF (fl.modify m) W := by
    rcases hp with hp | hp
    · exact Or.inl (LEQ_modify hp)
    · exact Or.inr hp
  have h2 : Sync (commOf x) (fl.modify m) W sts2 sts2 := by
    refine ⟨fun _ _ => rfl, fun w hw => ?_, fun w hw => ?_, fun w hw => ?_⟩
    · rw [hs2, upd_in hw, ← hs.seen w (hsub w hw)]
      unfold PSt.seen Flags.modify
      simp only
      rw [hm]
      rfl
    · rw [hs2, upd_in hw]; exact hs.wst w (hsub w hw)
    · rw [hs2, upd_in hw]; exact hs.nto w (hsub w hw)
  refine Ok.bind (hr x sts2 (fl.modify m) W hx.1 hx.2 hpm h2) fun r hpost => ?_
  obtain ⟨r, sts3⟩ := r
  obtain ⟨hsync, _, hplan⟩ := hpost
  rw [canon_tli (show (fl.modify m).tli = 0 from ht)] at hsync
  have h4 : Sync c fl W s0 (upd (commOf x) (fun w st => { st with flags := (sts w).flags }) sts3) := by
    have hin : ∀ w ∈ c, w ∉ commOf x → sts3 w = sts w := fun w _ hw => by
      have := hsync.out w hw
      rw [hs2, upd_out hw] at this
      exact this
    refine ⟨fun w hw => ?_, fun w hw => ?_, fun w hw => ?_, fun w hw => ?_⟩
    · have hw' : w ∉ commOf x := fun h => hw (hsub w h)
      rw [upd_out hw']
      have := hsync.out w hw'
      rw [hs2, upd_out hw'] at this
      exact this.trans (hs.out w hw)
    all_goals by_cases hw' : w ∈ commOf x
    · rw [upd_in hw']
      have e2 := congrArg Flags.nthr (hsync.seen w hw')
      have e3 := hs.seen w hw
      have e4 := congrArg Flags.nthr e3
      rw [← e3]
      unfold PSt.seen
      simp only
      have e5 : (sts3 w).nthr = (sts w).nthr := by
        refine Eq.trans e2 (Eq.trans ?_ e4.symm)
        show m.nthr.getD fl.nthr = fl.nthr
        rw [hm]; rfl
      rw [e5]
    · rw [upd_out hw', hin w hw hw']; exact hs.seen w hw
    · rw [upd_in hw']; exact hsync.wst w hw'
    · rw [upd_out hw', hin w hw hw']; exact hs.wst w hw
    · rw [upd_in hw']; exact hsync.nto w hw'
    · rw [upd_out hw', hin w hw hw']; exact hs.nto w hw
  exact ⟨h4, hplan⟩

theorem runGroups_ok (hr : RecOk S E d rec) {p : ℕ → Option MProblem} {m : FMod} (hm : m.nthr = none) (hp : PreF fl W) (ht : fl.tli = 0) (k : ℕ) :
    (∀ i < k, ∀ x, p i = some x → commOf x ≠ [] ∧ (commOf x).Nodup) → (∀ i < k, ∀ x, p i = some x → ∀ w ∈ commOf x, w ∈ c) → Sync c fl W s0 sts →
    Ok (runGroups rec p m k sts) fun r => Sync c fl W s0 r.2 ∧ ∀ i < k, ∀ x f, p i = some x → r.1 i = some f → MPlans S (LocalPlans E) d (fl.modify m) x f := by
  induction k with
  | zero => exact fun _ _ hs => ⟨hs, fun i hi => by omega⟩
  | succ k ih =>
    intro hx hsub hs
    rw [runGroups]
    refine Ok.bind (ih (fun i hi => hx i (by omega)) (fun i hi => hsub i (by omega)) hs) fun r hr1 => ?_
    obtain ⟨r, sts1⟩ := r
    obtain ⟨h1, h2⟩ := hr1
    simp only at h1 h2 ⊢
    cases hpk : p k with
    | none =>
      refine ⟨h1, fun i hi x f e1 e2 => ?_⟩
      by_cases hik : i = k
      · rw [hik, hpk] at e1; simp at e1
      · exact h2 i (by omega) x f e1 e2
    | some x =>
      refine Ok.bind (mkplanFD_ok hr hm (hx k (by omega) x hpk) (hsub k (by omega) x hpk) hp ht h1) fun r2 h3 => ?_
      obtain ⟨f, sts2⟩ := r2
      refine ⟨h3.1, fun i hi y g e1 e2 => ?_⟩
      by_cases hik : i = k
      · subst hik
        have e3 : f = some g := by rw [← e2]; exact (if_pos rfl).symm
        rw [hpk] at e1
        obtain rfl := Option.some.inj e1
        exact h3.2 g e3
      · have e3 : r i = some g := by rw [← e2]; exact (if_neg hik).symm
        exact h2 i (by omega) y g e1 e3

variable [Tensor.CLib]

theorem idx_at (hn : c.Nodup) {r : ℕ} (h : r < c.length) : c.idxOf (c.at r) = r :=
  at_inj hn (at_idx (at_mem h)).1 h (at_idx (at_mem h)).2

theorem runMk_ok (hr : RecOk S E d rec) (hl : ∀ w t, (E.env w).world.late t = false) (hc : c ≠ []) (hn : c.Nodup) (hp : PreF fl W) (ht : fl.tli = 0) {α : Type} (t : MMk α) :
    ∀ {sts : PSts}, t.Fits c → Sync c fl W s0 sts → Ok (runMk E n rec c t sts) fun r => Sync c fl W s0 r.2 ∧ t.Runs (LocalPlans E) (MPlans S (LocalPlans E) d) fl r.1 := by
  induction t with
  | ret a => exact fun _ hs => ⟨hs, .ret a⟩
  | loc k p m cont ih =>
    intro sts hf hs
    obtain ⟨rfl, hm, hf⟩ := hf
    rw [runMk, if_neg (by simp)]
    refine Ok.bind each_ok fun r hr1 => ?_
    have hw1 : ∀ w (hw : w ∈ c), _ := fun w hw =>
      serialPlan_ok hl hp (hs.seen w hw) ht hm (hs.wst w hw) (hs.nto w hw) (r := (r w).1) (st' := (r w).2) (hr1 w hw)
    have hs1 : Sync c fl W s0 (upd c (fun w _ => (r w).2) sts) := by
      refine ⟨fun w hw => by rw [upd_out hw]; exact hs.out w hw, fun w hw => ?_, fun w hw => ?_, fun w hw => ?_⟩
      · rw [upd_in hw]; exact (hw1 w hw).1
      · rw [upd_in hw]; exact (hw1 w hw).2.1
      · rw [upd_in hw]; exact (hw1 w hw).2.2.1
    refine Ok.bind (agree_ok fun _ _ => rfl) fun fail hfail => ?_
    refine (ih _ (hf _) hs1).mono fun a ha => ⟨ha.1, ?_⟩
    cases fail with
    | true => exact .locNone _ _ _ _ _ ha.2
    | false =>
      refine .loc _ _ _ _ _ _ (fun me hme x hx => ?_) ha.2
      have hmem := at_mem hme
      have hno := List.any_eq_false.1 hfail.symm _ hmem
      simp only [Bool.and_eq_true, not_and, Bool.not_eq_true] at hno
      rw [idx_at hn hme, hx] at hno
      have hsome := hno rfl
      cases hpl : (r (c.at me)).1 with
      | none => rw [hpl] at hsome; simp at hsome
      | some pl => exact (hw1 _ hmem).2.2.2 x pl (by rw [idx_at hn hme]; exact hx) hpl
  | grp k p m cont ih =>
    intro sts hf hs
    obtain ⟨hg, hm, hx, hf⟩ := hf
    rw [runMk, if_neg (not_not.2 hg)]
    refine Ok.bind (runGroups_ok hr hm hp ht k hx (fun i hi x e => (hg i hi x e).1) hs) fun r hr1 => ?_
    obtain ⟨r, sts1⟩ := r
    obtain ⟨h1, h2⟩ := hr1
    simp only at h1 h2 ⊢
    cases hfail : (List.range k).any fun i => (p i).isSome && (r i).isNone with
    | true => exact (ih _ (hf _) h1).mono fun a ha => ⟨ha.1, .grpNone _ _ _ _ _ ha.2⟩
    | false =>
      refine (ih _ (hf _) h1).mono fun a ha => ⟨ha.1, .grp _ _ _ _ _ _ (fun me hme x hx => ?_) ha.2⟩
      have hno := List.any_eq_false.1 hfail me (List.mem_range.2 hme)
      simp only [Bool.and_eq_true, not_and, Bool.not_eq_true] at hno
      rw [hx] at hno
      have hsome := hno rfl
      cases hpl : r me with
      | none => rw [hpl] at hsome; simp at hsome
      | some pl => exact h2 me hme x pl hx hpl

end FFTW.Mpi.MPlanner
