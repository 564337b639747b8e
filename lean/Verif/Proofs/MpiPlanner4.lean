import Verif.Proofs.MpiPlanner3

/-! planning in step: search and wisdom -/

namespace FFTW.Mpi.MPlanner
open FFTW.Planner
variable [Tensor.CLib]

/-- the assumptions: registered solvers are in `S`, and those meet the planner's demands; no time limit -/
structure Fine (S : MSolver → Prop) (E : MEnv) : Prop where
  reg : ∀ (i : ℕ) d, E.reg[i]? = some (some d) → S d.2
  fits : ∀ s, S s → s.Fits
  late : ∀ w t, (E.env w).world.late t = false
  tl : ∀ w, E.tl w = none

variable {fl : Flags} {W : WState} {s0 sts : PSts} {E : MEnv} {S : MSolver → Prop} {d n : ℕ} {rec : MRec} {p : MProblem}

theorem leq_refl {w : ℕ} (x : BitVec w) : LEQ x x = true := by simp [LEQ]

/-- candidates in step, for a solver run with the restrictions `fl'` -/
def Cand (S : MSolver → Prop) (E : MEnv) (d : ℕ) (p : MProblem) (fl : Flags) (b : MBPlan) : Prop :=
  Const (commOf p) b.pcost ∧ MPlans S (LocalPlans E) (d + 1) fl p b.pl

theorem invokeSolver_ok (hE : Fine S E) (hr : RecOk S E d rec) (hc : commOf p ≠ []) (hn : (commOf p).Nodup) {s : MSolver} (hS : S s) {f : ℕ → FlagsT} {gl gu : BitVec 20}
    (hf : ∀ w ∈ commOf p, (f w).l = gl ∧ (f w).u = gu) (hp : LEQ gl gu = true ∨ W = .only ∨ W = .bogus) (hle : LEQ fl.l gl = true) (hs : Sync (commOf p) fl W s0 sts) :
    Ok (invokeSolver E n rec p s f sts) fun r => Sync (commOf p) fl W s0 r.2 ∧ ∀ b, r.1 = some b → Cand S E d p fl b := by
  unfold invokeSolver
  simp only
  set sts1 := upd (commOf p) (fun w st => { st with flags := { f w with tli := 0 } }) sts with hs1
  have h1 : Sync (commOf p) ⟨gl, gu, 0, fl.nthr⟩ W s0 sts1 := by
    refine ⟨fun w hw => by rw [hs1, upd_out hw]; exact hs.out w hw, fun w hw => ?_, fun w hw => ?_, fun w hw => ?_⟩
    · rw [hs1, upd_in hw]
      unfold PSt.seen
      simp only
      rw [(hf w hw).1, (hf w hw).2, show (sts w).nthr = fl.nthr from congrArg Flags.nthr (hs.seen w hw)]
    · rw [hs1, upd_in hw]; exact hs.wst w hw
    · rw [hs1, upd_in hw]; exact hs.nto w hw
  refine Ok.bind (agree_eq hc h1.seen) fun seen hseen => ?_
  subst hseen
  refine Ok.bind (runMk_ok hr hE.late hc hn (show PreF ⟨gl, gu, 0, fl.nthr⟩ W from hp) rfl _ (hE.fits s hS p _ hc hn) h1) fun r h2 => ?_
  obtain ⟨pl, sts2⟩ := r
  obtain ⟨h2, h3⟩ := h2
  simp only at h2 h3
  have h4 : Sync (commOf p) fl W s0 (upd (commOf p) (fun w st => { st with flags := (sts w).flags, nthr := (sts w).nthr }) sts2) := by
    refine ⟨fun w hw => by rw [upd_out hw]; exact h2.out w hw, fun w hw => ?_, fun w hw => ?_, fun w hw => ?_⟩
    · rw [upd_in hw]; exact hs.seen w hw
    · rw [upd_in hw]; exact h2.wst w hw
    · rw [upd_in hw]; exact h2.nto w hw
  refine ⟨h4, fun b hb => ?_⟩
  obtain ⟨pl', rfl, rfl⟩ := Option.map_eq_some_iff.1 hb
  exact ⟨fun _ _ => rfl, ⟨gl, gu, 0, fl.nthr⟩, hle, s, hS, h3⟩

theorem consider_ok (hc : commOf p ≠ []) {best : Found} (hb : ∀ b, best = some b → Cand S E d p fl b.1) {nt : Bool} {pln : MBPlan} (hp : Cand S E d p fl pln) {i : ℕ}
    (hs : Sync (commOf p) fl W s0 sts) : Ok (consider E n (commOf p) best nt pln i sts) fun r => Cand S E d p fl r.1.1 ∧ Sync (commOf p) fl W s0 r.2.2 := by
  unfold consider
  cases best with
  | none => exact ⟨hp, hs⟩
  | some x =>
    obtain ⟨b, j⟩ := x
    have hb1 := hb _ rfl
    simp only at hb1
    have h1 : Ok (if nt = true then evaluatePlan E n (commOf p) b sts else .ok (b, sts)) fun r => Cand S E d p fl r.1 ∧ Sync (commOf p) fl W s0 r.2 := by
      cases nt
      · rw [if_neg (by decide)]; exact ⟨hb1, hs⟩
      · rw [if_pos rfl]
        exact (evaluatePlan_ok hc hb1.1 hs).mono fun r hr => ⟨⟨hr.2.1, by rw [hr.1]; exact hb1.2⟩, hr.2.2⟩
    refine Ok.bind h1 fun r hr1 => ?_
    obtain ⟨b1, sts1⟩ := r
    refine Ok.bind (evaluatePlan_ok hc hp.1 hr1.2) fun r hr2 => ?_
    obtain ⟨p1, sts2⟩ := r
    simp only at hr1 hr2 ⊢
    refine Ok.bind (agree_ok fun w hw => by rw [hr2.2.1 w hw, hr1.1.1 w hw]) fun better _ => ?_
    cases better
    · exact ⟨hr1.1, hr2.2.2⟩
    · exact ⟨⟨hr2.2.1, by show MPlans _ _ _ _ _ p1.pl; rw [hr2.1]; exact hp.2⟩, hr2.2.2⟩

theorem search0Loop_ok (hE : Fine S E) (hr : RecOk S E d rec) (hc : commOf p ≠ []) (hn : (commOf p).Nodup) {f : ℕ → FlagsT} {gl gu : BitVec 20}
    (hf : ∀ w ∈ commOf p, (f w).l = gl ∧ (f w).u = gu) (hp : LEQ gl gu = true) (hle : LEQ fl.l gl = true) (L : List ℕ) :
    ∀ {best : Found} {nt : Bool} {sts : PSts}, (∀ b, best = some b → Cand S E d p fl b.1) → Sync (commOf p) fl W s0 sts →
    Ok (search0Loop E n rec p f L best nt sts) fun r => Sync (commOf p) fl W s0 r.2 ∧ ∀ b, r.1 = some b → Cand S E d p fl b.1 := by
  induction L with
  | nil => exact fun hb hs => ⟨hs, hb⟩
  | cons i rest ih =>
    intro best nt sts hb hs
    rw [search0Loop]
    split
    · rename_i dd hd
      refine Ok.bind (invokeSolver_ok hE hr hc hn (hE.reg i dd hd) hf (Or.inl hp) hle hs) fun r h1 => ?_
      obtain ⟨pln, sts1⟩ := r
      simp only at h1 ⊢
      refine Ok.bind (timeoutP_ok hE.tl hc h1.1) fun r h2 => ?_
      obtain ⟨late, sts2⟩ := r
      simp only at h2 ⊢
      obtain ⟨rfl, h2⟩ := h2
      rw [if_neg (by decide)]
      cases pln with
      | none => exact ih hb h2
      | some pln =>
        refine Ok.bind (consider_ok hc hb (h1.2 pln rfl) h2) fun r h3 => ?_
        obtain ⟨b, nt', sts3⟩ := r
        exact ih (fun b' e => by obtain rfl := Option.some.inj e; exact h3.1) h3.2
    · intro h; simp at h

theorem search0_ok (hE : Fine S E) (hr : RecOk S E d rec) (hc : commOf p ≠ []) (hn : (commOf p).Nodup) {f : ℕ → FlagsT} {gl gu : BitVec 20}
    (hf : ∀ w ∈ commOf p, (f w).l = gl ∧ (f w).u = gu) (hp : LEQ gl gu = true) (hle : LEQ fl.l gl = true) (hs : Sync (commOf p) fl W s0 sts) :
    Ok (search0 E n rec p f sts) fun r => Sync (commOf p) fl W s0 r.2 ∧ ∀ b, r.1 = some b → Cand S E d p fl b.1 := by
  unfold search0
  refine Ok.bind (timeoutP_ok hE.tl hc hs) fun r h2 => ?_
  obtain ⟨late, sts2⟩ := r
  simp only at h2 ⊢
  obtain ⟨rfl, h2⟩ := h2
  rw [if_neg (by decide)]
  exact search0Loop_ok hE hr hc hn hf hp hle _ (fun b e => by simp at e) h2

theorem searchLoop_ok (hE : Fine S E) (hr : RecOk S E d rec) (hc : commOf p ≠ []) (hn : (commOf p).Nodup) {lorig : ℕ → BitVec 20} (hlo : ∀ w ∈ commOf p, lorig w = fl.l)
    (L : List (BitVec 20)) : ∀ {x : ℕ → BitVec 20} {lx : ℕ → Option (BitVec 20)} {f : ℕ → FlagsT} {sts : PSts} {xv : BitVec 20}, (∀ w ∈ commOf p, x w = xv) → LEQ fl.l xv = true →
      LEQ xv fl.u = true → Const (commOf p) lx → (∀ w ∈ commOf p, (f w).u = fl.u) → Sync (commOf p) fl W s0 sts →
    Ok (searchLoop E n rec p lorig L x lx f sts) fun r => Sync (commOf p) fl W s0 r.2.2.2 ∧ (∀ b, r.1 = some b → Cand S E d p fl b.1) ∧
      Const (commOf p) r.2.2.1 ∧ ∀ w ∈ commOf p, (r.2.1 w).u = fl.u := by
  induction L with
  | nil => exact fun _ _ _ hl hf hs => ⟨hs, fun b e => by simp at e, hl, hf⟩
  | cons a rest ih =>
    intro x lx f sts xv hx h1 h2 hl hf hs
    rw [searchLoop]
    simp only
    have hy : ∀ w ∈ commOf p, relaxed (lorig w) (x w) a = relaxed fl.l xv a := fun w hw => by rw [hlo w hw, hx w hw]
    have hy1 : LEQ fl.l (relaxed fl.l xv a) = true := by unfold relaxed; split <;> assumption
    have hy2 : LEQ (relaxed fl.l xv a) fl.u = true := by
      unfold relaxed; split
      · exact LEQ_and_not h2
      · exact h2
    refine Ok.bind (agree_ok fun w hw => ?_) fun new _ => ?_
    · simp only [hl w hw, hy w hw, hy _ (at0 hc)]
    · cases new
      · rw [if_neg (by decide)]
        exact ih hy hy1 hy2 hl hf hs
      · rw [if_pos rfl]
        refine Ok.bind (search0_ok hE hr hc hn (f := fun w => { f w with l := relaxed (lorig w) (x w) a }) (fun w hw => ⟨hy w hw, hf w hw⟩) hy2 hy1 hs) fun r h3 => ?_
        obtain ⟨b, sts1⟩ := r
        have hlx : Const (commOf p) fun w => some (relaxed (lorig w) (x w) a) := fun w hw => by simp only [hy w hw, hy _ (at0 hc)]
        cases b with
        | some b => exact ⟨h3.1, h3.2, hlx, hf⟩
        | none => exact ih hy hy1 hy2 hlx hf h3.1

theorem search_ok (hE : Fine S E) (hr : RecOk S E d rec) (hc : commOf p ≠ []) (hn : (commOf p).Nodup) {f : ℕ → FlagsT} (hf : ∀ w ∈ commOf p, (f w).l = fl.l ∧ (f w).u = fl.u)
    (hp : LEQ fl.l fl.u = true) (hs : Sync (commOf p) fl W s0 sts) :
    Ok (search E n rec p f sts) fun r => Sync (commOf p) fl W s0 r.2.2 ∧ ∀ b, r.1 = some b → Cand S E d p fl b.1 := by
  unfold search
  simp only
  refine Ok.bind (searchLoop_ok hE hr hc hn (fun w hw => (hf w hw).1) relaxTab (fun w hw => (hf w hw).2) hp (leq_refl _) (fun _ _ => rfl) (fun w hw => (hf w hw).2) hs) fun r h => ?_
  obtain ⟨b, g, lx, sts1⟩ := r
  obtain ⟨h1, h2, h3, h4⟩ := h
  cases b with
  | some b => exact ⟨h1, h2⟩
  | none =>
    refine Ok.bind (agree_ok fun w hw => ?_) fun more _ => ?_
    · have h3' := h3 w hw
      simp only at h3'
      simp only [h3', (hf w hw).1, (hf _ (at0 hc)).1]
    · cases more
      · exact ⟨h1, fun b e => by simp at e⟩
      · rw [if_pos rfl]
        refine Ok.bind (search0_ok hE hr hc hn (f := fun w => { g w with l := (f w).l }) (fun w hw => ⟨(hf w hw).1, h4 w hw⟩) hp (leq_refl _) h1) fun r h => ?_
        obtain ⟨b, sts2⟩ := r
        exact h

/-- how planning ends -/
structure Fin (S : MSolver → Prop) (E : MEnv) (d : ℕ) (p : MProblem) (fl : Flags) (W : WState) (s0 : PSts) (r : Option MPlan × PSts) : Prop where
  sync : Sync (commOf p) fl W s0 r.2
  same : ∃ W', ∀ w ∈ commOf p, (r.2 w).wstate = W'
  plan : ∀ f, r.1 = some f → MPlans S (LocalPlans E) (d + 1) fl p f

theorem bogusExit_ok (hs : Sync (commOf p) fl W s0 sts) : Ok (bogusExit (commOf p) sts) (Fin S E d p fl W s0) := by
  have h1 : Sync (commOf p) fl W s0 (upd (commOf p) (fun _ st => { st with wstate := .bogus }) sts) := by
    refine ⟨fun w hw => by rw [upd_out hw]; exact hs.out w hw, fun w hw => ?_, fun w hw => ?_, fun w hw => ?_⟩
    · rw [upd_in hw]; exact hs.seen w hw
    · rw [upd_in hw]; exact Or.inr rfl
    · rw [upd_in hw]; exact hs.nto w hw
  exact ⟨h1, ⟨.bogus, fun w hw => by show (upd _ _ _ w).wstate = _; rw [upd_in hw]⟩, fun f e => by simp at e⟩

theorem skipSearch_ok {m : ℕ → MSig} {f : ℕ → FlagsT} {b : Option (MPlan × ℕ)} (hs : Sync (commOf p) fl W s0 sts) (hW : ∀ w ∈ commOf p, (sts w).wstate = W)
    (hb : ∀ x, b = some x → MPlans S (LocalPlans E) (d + 1) fl p x.1) : Ok (skipSearch (commOf p) m f b sts) (Fin S E d p fl W s0) := by
  unfold skipSearch
  refine Ok.bind each_ok fun r hr => ?_
  have key : ∀ w ∈ commOf p, (r w).seen = (sts w).seen ∧ (r w).wstate = (sts w).wstate ∧ (r w).timedOut = (sts w).timedOut := by
    intro w hw
    have := hr w hw
    split at this
    · have h1 := hinsert_keep this
      exact ⟨by unfold PSt.seen; rw [h1.1, h1.2.1], h1.2.2.1, hinsert_nt this⟩
    · simp only [Except.ok.injEq] at this
      rw [← this]
      exact ⟨rfl, rfl, rfl⟩
  have h1 := hs.upd (g := fun w _ => r w) key
  refine ⟨h1, ⟨W, fun w hw => ?_⟩, fun f e => ?_⟩
  · show (upd _ _ _ w).wstate = _; rw [upd_in hw, (key w hw).2.1]; exact hW w hw
  · obtain ⟨x, hx, rfl⟩ := Option.map_eq_some_iff.1 e
    exact hb x hx

theorem doSearch_ok (hE : Fine S E) (hr : RecOk S E d rec) (hc : commOf p ≠ []) (hn : (commOf p).Nodup) {m : ℕ → MSig} (hp : PreF fl W) (hb : W ≠ .bogus)
    (hW : ∀ w ∈ commOf p, (sts w).wstate = W) (hs : Sync (commOf p) fl W s0 sts) : Ok (doSearch E n rec p m sts) (Fin S E d p fl W s0) := by
  unfold doSearch
  simp only
  refine Ok.bind (agree_eq hc (v := decide (W = .only)) fun w hw => by rw [hW w hw]) fun x hx => ?_
  subst hx
  by_cases ho : W = .only
  · rw [if_pos (by simpa using ho)]
    exact bogusExit_ok hs
  · rw [if_neg (by simpa using ho)]
    have hpl : LEQ fl.l fl.u = true := by
      rcases hp with h | h | h
      · exact h
      · exact absurd h ho
      · exact absurd h hb
    refine Ok.bind (search_ok hE hr hc hn (fun w hw => ⟨congrArg Flags.l (hs.seen w hw), congrArg Flags.u (hs.seen w hw)⟩) hpl hs) fun r h1 => ?_
    obtain ⟨b, f, sts1⟩ := r
    simp only at h1 ⊢
    refine Ok.bind (checkBogosity_ok hc h1.1) fun r h2 => ?_
    obtain ⟨bog, sts2⟩ := r
    simp only at h2 ⊢
    cases bog
    · rw [if_neg (by decide)]
      refine Ok.bind (agree_eq hc (v := false) fun w hw => h2.1.nto w hw) fun x hx => ?_
      subst hx
      rw [if_neg (by decide)]
      refine skipSearch_ok h2.1 (h2.2 rfl).2 fun x e => ?_
      obtain ⟨y, hy, rfl⟩ := Option.map_eq_some_iff.1 e
      exact (h1.2 y hy).2
    · rw [if_pos rfl]
      exact bogusExit_ok h2.1

theorem MPlans.leq {A : Flags → Problem → Plan → Prop} {fl fl' : Flags} {f : MPlan} (h : LEQ fl.l fl'.l = true) (hf : MPlans S A (d + 1) fl' p f) : MPlans S A (d + 1) fl p f := by
  obtain ⟨g, hg, s, hs, hr⟩ := hf
  refine ⟨g, ?_, s, hs, hr⟩
  simp only [LEQ, decide_eq_true_eq] at *
  rw [← h, BitVec.and_assoc, hg]

theorem useWisdom_ok (hE : Fine S E) (hr : RecOk S E d rec) (hc : commOf p ≠ []) (hn : (commOf p).Nodup) {m : ℕ → MSig} {sol : ℕ → Slot} (hp : PreF fl W) (hb : W ≠ .bogus)
    (hW : ∀ w ∈ commOf p, (sts w).wstate = W) (hs : Sync (commOf p) fl W s0 sts)
    (hsol : ∀ w ∈ commOf p, (sol w).fl = (sol ((commOf p).at 0)).fl ∧ (sol w).slvndx = (sol ((commOf p).at 0)).slvndx)
    (hsub : subsumes (sol ((commOf p).at 0)).fl (sol ((commOf p).at 0)).slvndx (sts ((commOf p).at 0)).flags = true) :
    Ok (useWisdom E n rec p m sol sts) (Fin S E d p fl W s0) := by
  unfold useWisdom
  simp only
  refine Ok.bind (agree_ok fun w hw => (hsol w hw).2) fun ndx hndx => ?_
  split
  · refine Ok.bind (agree_ok fun w hw => by rw [hW w hw, hW _ (at0 hc)]) fun x _ => ?_
    cases x
    · rw [if_neg (by decide)]
      exact ⟨hs, ⟨W, hW⟩, fun f e => by simp at e⟩
    · rw [if_pos rfl]
      exact doSearch_ok hE hr hc hn hp hb hW hs
  · rename_i hfeas
    have hle : LEQ fl.l (sol ((commOf p).at 0)).fl.l = true := by
      have h1 := subsumes_l hsub (by rw [← hndx]; exact hfeas)
      rw [show (sts ((commOf p).at 0)).flags.l = fl.l from congrArg Flags.l (hs.seen _ (at0 hc))] at h1
      exact h1
    set sts1 := upd (commOf p) (fun _ st => { st with wstate := .only }) sts with hs1
    have h1 : Sync (commOf p) fl .only s0 sts1 := by
      refine ⟨fun w hw => by rw [hs1, upd_out hw]; exact hs.out w hw, fun w hw => ?_, fun w hw => ?_, fun w hw => ?_⟩
      · rw [hs1, upd_in hw]; exact hs.seen w hw
      · rw [hs1, upd_in hw]; exact Or.inl rfl
      · rw [hs1, upd_in hw]; exact hs.nto w hw
    -- giving up
    have hbx : ∀ sts', Sync (commOf p) fl .only s0 sts' → Ok (bogusExit (commOf p) sts') (Fin S E d p fl W s0) := by
      intro sts' h
      have h2 : Sync (commOf p) fl W s0 (upd (commOf p) (fun _ st => { st with wstate := .bogus }) sts') := by
        refine ⟨fun w hw => by rw [upd_out hw]; exact h.out w hw, fun w hw => ?_, fun w hw => ?_, fun w hw => ?_⟩
        · rw [upd_in hw]; exact h.seen w hw
        · rw [upd_in hw]; exact Or.inr rfl
        · rw [upd_in hw]; exact h.nto w hw
      exact ⟨h2, ⟨.bogus, fun w hw => by show (upd _ _ _ w).wstate = _; rw [upd_in hw]⟩, fun f e => by simp at e⟩
    split
    · intro h; simp at h
    · exact hbx _ h1
    · rename_i dd hd
      split
      · exact hbx _ h1
      · refine Ok.bind (invokeSolver_ok (fl := fl) hE hr hc hn (hE.reg _ dd hd)
          (f := fun w => { (sol w).fl with hi := (sol w).fl.hi ||| bliss (sts w).flags }) (gl := (sol ((commOf p).at 0)).fl.l) (gu := (sol ((commOf p).at 0)).fl.u)
          (fun w hw => ⟨show (sol w).fl.l = _ by rw [(hsol w hw).1], show (sol w).fl.u = _ by rw [(hsol w hw).1]⟩) (Or.inr (Or.inl rfl)) hle h1) fun r h2 => ?_
        obtain ⟨pln, sts2⟩ := r
        simp only at h2 ⊢
        refine Ok.bind (checkBogosity_ok hc h2.1) fun r h3 => ?_
        obtain ⟨bog, sts3⟩ := r
        simp only at h3 ⊢
        cases bog
        · rw [if_neg (by decide)]
          cases pln with
          | none => exact hbx _ h3.1
          | some b =>
            have h4 : Sync (commOf p) fl W s0 (upd (commOf p) (fun w st => { st with wstate := (sts w).wstate }) sts3) := by
              refine ⟨fun w hw => by rw [upd_out hw]; exact h3.1.out w hw, fun w hw => ?_, fun w hw => ?_, fun w hw => ?_⟩
              · rw [upd_in hw]; exact h3.1.seen w hw
              · rw [upd_in hw]; exact Or.inl (hW w hw)
              · rw [upd_in hw]; exact h3.1.nto w hw
            refine skipSearch_ok h4 (fun w hw => by rw [upd_in hw]; exact hW w hw) fun x e => ?_
            obtain rfl := Option.some.inj e
            exact (h2.2 b rfl).2
        · rw [if_pos rfl]
          exact hbx _ h3.1

theorem mkplanBody_ok (hE : Fine S E) (hr : RecOk S E d rec) : RecOk S E (d + 1) (mkplanBody E n rec) := by
  intro p sts fl W hc hn hp hs
  unfold mkplanBody
  simp only
  set sts1 := upd (commOf p) (fun _ st => if st.estimatep then { st with flags := { st.flags with tli := 0 } } else st) sts with hs1
  have h1 : Sync (commOf p) (canon fl) W sts sts1 := by
    refine ⟨fun w hw => by rw [hs1, upd_out hw], fun w hw => ?_, fun w hw => ?_, fun w hw => ?_⟩
    · rw [hs1, upd_in hw, hs.est w hw]
      have := hs.seen w hw
      unfold canon
      by_cases h : fl.u &&& ESTIMATE ≠ 0
      · rw [if_pos (by simpa using h), if_pos h, ← this]; rfl
      · rw [if_neg (by simpa using h), if_neg h]; exact this
    · rw [hs1, upd_in hw]; split <;> exact hs.wst w hw
    · rw [hs1, upd_in hw]; split <;> exact hs.nto w hw
  have hcl : (canon fl).l = fl.l := by unfold canon; split <;> rfl
  have hcu : (canon fl).u = fl.u := by unfold canon; split <;> rfl
  have hp' : PreF (canon fl) W := by unfold PreF; rw [hcl, hcu]; exact hp
  have fin : ∀ r, Fin S E d p (canon fl) W sts r → PostR S E (d + 1) p fl W sts r := fun r h =>
    ⟨h.sync, h.same, fun f e => MPlans.leq (by rw [hcl]; exact leq_refl _) (h.plan f e)⟩
  refine Ok.mono (Q := Fin S E d p (canon fl) W sts) ?_ fin
  refine Ok.bind (checkBogosity_ok hc h1) fun r h2 => ?_
  obtain ⟨bog, sts2⟩ := r
  simp only at h2 ⊢
  cases bog
  · rw [if_neg (by decide)]
    obtain ⟨h2, h3⟩ := h2
    obtain ⟨hb, hW2⟩ := h3 rfl
    set sts3 := upd (commOf p) (fun _ st => { st with timedOut := false, nprob := st.nprob + 1 }) sts2 with hs3
    have h4 : Sync (commOf p) (canon fl) W sts sts3 := by
      refine ⟨fun w hw => by rw [hs3, upd_out hw]; exact h2.out w hw, fun w hw => ?_, fun w hw => ?_, fun w hw => ?_⟩
      · rw [hs3, upd_in hw]; exact h2.seen w hw
      · rw [hs3, upd_in hw]; exact h2.wst w hw
      · rw [hs3, upd_in hw]
    have hW3 : ∀ w ∈ commOf p, (sts3 w).wstate = W := fun w hw => by rw [hs3, upd_in hw]; exact hW2 w hw
    refine Ok.bind (agree_ok fun w hw => by rw [hW3 w hw, hW3 _ (at0 hc)]) fun x _ => ?_
    cases x
    · rw [if_neg (by decide)]
      exact doSearch_ok hE hr hc hn hp' hb hW3 h4
    · rw [if_pos rfl]
      refine Ok.bind each_ok fun found hfound => ?_
      refine Ok.bind (agree_ok fun _ _ => rfl) fun none hnone => ?_
      cases none
      · rw [if_neg (by decide)]
        refine Ok.bind (agree_ok fun _ _ => rfl) fun ok hok => ?_
        cases ok
        · rw [if_neg (by decide)]
          exact doSearch_ok hE hr hc hn hp' hb hW3 h4
        · rw [if_pos rfl]
          have hall := List.all_eq_true.1 (show (commOf p).all _ = true from hok.symm)
          refine useWisdom_ok hE hr hc hn hp' hb hW3 h4 (fun w hw => of_decide_eq_true (hall w hw)) ?_
          have hno := List.any_eq_false.1 (show (commOf p).any _ = false from hnone.symm) _ (at0 hc)
          cases hf0 : found ((commOf p).at 0) with
          | none => rw [hf0] at hno; simp at hno
          | some x =>
            have := hfound _ (at0 hc)
            rw [hf0] at this
            exact (hlookup_cand this).2.2
      · rw [if_pos rfl]
        exact doSearch_ok hE hr hc hn hp' hb hW3 h4
  · rw [if_pos rfl]
    exact bogusExit_ok h2.1

/-- planning in step -/
theorem mkplan_ok (hE : Fine S E) (d : ℕ) : RecOk S E d (mkplan E d) := by
  induction d with
  | zero => intro p sts fl W _ _ _ _ h; simp at h
  | succ d ih => exact mkplanBody_ok hE ih

end FFTW.Mpi.MPlanner
