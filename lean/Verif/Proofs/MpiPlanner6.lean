import Verif.Proofs.MpiPlanner5
import Verif.Proofs.Api

/-! planning in step: api/apiplan.c -/

namespace FFTW.Mpi.MPlanner
open FFTW.Planner
open MapFlags (U32 FFTW_ESTIMATE FFTW_PATIENT FFTW_EXHAUSTIVE)

variable [Tensor.CLib] {S : MSolver → Prop} {E : MEnv} {n : ℕ} {p : MProblem} {rec : MRec} {c : Comm}

theorem checkBogosity_none (hc : c ≠ []) {sts : PSts} (h : ∀ w ∈ c, (sts w).wstate ≠ .bogus) : checkBogosity c sts = .ok (false, sts) := by
  unfold checkBogosity
  have hany : c.any (fun w => decide ((sts w).wstate = .bogus)) = false := List.any_eq_false.2 fun w hw => by simpa using h w hw
  have e : anyTrue c (fun w => decide ((sts w).wstate = .bogus)) = fun _ => false := by funext w; exact hany
  rw [e]
  simp only [Bool.false_eq_true, if_false]
  have e2 : upd c (fun _ st => { st with wstate := st.wstate }) sts = sts := by
    funext w
    unfold upd
    split <;> rfl
  rw [e2]
  unfold agree
  have hd : ∀ w ∈ c, decide ((sts w).wstate = .bogus) = false := fun w hw => decide_eq_false (h w hw)
  rw [if_pos fun w hw => (hd w hw).trans (hd _ (at0 hc)).symm]
  show Except.ok (decide ((sts (c.at 0)).wstate = .bogus), sts) = _
  rw [hd _ (at0 hc)]

/-- a timeout of an earlier call is forgotten -/
theorem mkplanBody_nto (hc : commOf p ≠ []) {sts : PSts} (h : ∀ w ∈ commOf p, (sts w).wstate ≠ .bogus) :
    mkplanBody E n rec p sts = mkplanBody E n rec p (upd (commOf p) (fun _ st => { st with timedOut := false }) sts) := by
  unfold mkplanBody
  simp only
  rw [checkBogosity_none hc, checkBogosity_none hc]
  · have e : upd (commOf p) (fun _ st => { st with timedOut := false, nprob := st.nprob + 1 })
          (upd (commOf p) (fun _ st => if st.estimatep = true then { st with flags := { st.flags with tli := 0 } } else st) sts) =
        upd (commOf p) (fun _ st => { st with timedOut := false, nprob := st.nprob + 1 })
          (upd (commOf p) (fun _ st => if st.estimatep = true then { st with flags := { st.flags with tli := 0 } } else st)
            (upd (commOf p) (fun _ st => { st with timedOut := false }) sts)) := by
      funext w
      by_cases hw : w ∈ commOf p
      · rw [upd_in hw, upd_in hw, upd_in hw, upd_in hw, upd_in hw]
        have : ({ sts w with timedOut := false } : PSt).estimatep = (sts w).estimatep := rfl
        rw [this]
        split <;> rfl
      · rw [upd_out hw, upd_out hw, upd_out hw, upd_out hw, upd_out hw]
    simp only [bind, Except.bind]
    rw [if_neg (by decide), if_neg (by decide), e]
  · intro w hw
    rw [upd_in hw, upd_in hw]
    split <;> exact h w hw
  · intro w hw
    rw [upd_in hw]
    split <;> exact h w hw

theorem mkplan_nto (hc : commOf p ≠ []) {sts : PSts} (h : ∀ w ∈ commOf p, (sts w).wstate ≠ .bogus) :
    mkplan E n p sts = mkplan E n p (upd (commOf p) (fun _ st => { st with timedOut := false }) sts) := by
  cases n with
  | zero => rfl
  | succ n => exact mkplanBody_nto hc h

/-- between calls of the planner: processes of `c` plan for `nt` threads and have the same wisdom state (anything), others are as in `s0` -/
structure Rest (c : Comm) (nt : ℕ) (s0 sts : PSts) : Prop where
  out : ∀ w, w ∉ c → sts w = s0 w
  nthr : ∀ w ∈ c, (sts w).nthr = nt
  same : ∃ W, ∀ w ∈ c, (sts w).wstate = W

/-- the same without the wisdom state, which each call of the planner sets -/
def Idle (c : Comm) (nt : ℕ) (s0 sts : PSts) : Prop := (∀ w, w ∉ c → sts w = s0 w) ∧ ∀ w ∈ c, (sts w).nthr = nt

theorem Rest.idle {nt : ℕ} {s0 sts : PSts} (h : Rest c nt s0 sts) : Idle c nt s0 sts := ⟨h.out, h.nthr⟩

variable {nt : ℕ} {s0 sts : PSts}

theorem allState_ok (hc : c ≠ []) {ws : WState} (h : Rest c nt s0 sts) : Ok (allState c ws sts) fun _ => True := by
  obtain ⟨W, hW⟩ := h.same
  exact (agree_eq hc (v := decide (W = ws)) fun w hw => by rw [hW w hw]).mono fun _ _ => trivial

theorem forget_same {st st' : PSt} {a : Amnesia} (h : forget st a = .ok st') : st'.nthr = st.nthr ∧ st'.wstate = st.wstate := by
  unfold forget at h
  cases ht : ofOpt mkhashtab with
  | error e => cases a <;> simp [ht, bind, Except.bind, pure, Except.pure] at h
  | ok t =>
    cases a
    · simp only [ht, bind, Except.bind, pure, Except.pure, Except.ok.injEq] at h
      rw [← h]; exact ⟨rfl, rfl⟩
    · simp only [ht, bind, Except.bind, pure, Except.pure, Except.ok.injEq] at h
      rw [← h]; exact ⟨rfl, rfl⟩

theorem forgetAll_ok {a : Amnesia} (h : Rest c nt s0 sts) : Ok (forgetAll c a sts) (Rest c nt s0) := by
  unfold forgetAll
  refine Ok.bind each_ok fun r hr => ?_
  obtain ⟨W, hW⟩ := h.same
  refine (⟨fun w hw => by rw [upd_out hw]; exact h.out w hw, fun w hw => ?_, W, fun w hw => ?_⟩ : Rest c nt s0 (upd c (fun w _ => r w) sts))
  · rw [upd_in hw, (forget_same (hr w hw)).1, h.nthr w hw]
  · rw [upd_in hw, (forget_same (hr w hw)).2, hW w hw]

/-- plans for API flags that agree with `flags` but for the patience -/
def Planned (S : MSolver → Prop) (E : MEnv) (p : MProblem) (flags : U32) (f : MPlan) : Prop :=
  ∃ g d fl pf, SameWish g flags ∧ MapFlags.mapflags (-1) g = some pf ∧ fl.l = pf.l ∧ MPlans S (LocalPlans E) d fl p f

/-- processes are at rest again, with a plan if there is one -/
def PostA (S : MSolver → Prop) (E : MEnv) (p : MProblem) (flags : U32) (nt : ℕ) (s0 : PSts) (r : Option MPlan × PSts) : Prop :=
  Rest (commOf p) nt s0 r.2 ∧ ∀ f, r.1 = some f → Planned S E p flags f

theorem mkplan0_ok (hE : Fine S E) (hc : commOf p ≠ []) (hn : (commOf p).Nodup) {flags g : U32} (hg : SameWish g flags) {hi : BitVec 3} {ws : WState} (hws : ws ≠ .bogus)
    (h : Idle (commOf p) nt s0 sts) : Ok (mkplan0 E n g p hi ws sts) (PostA S E p flags nt s0) := by
  unfold mkplan0
  refine Ok.bind each_ok fun f hf => ?_
  obtain ⟨pf, hpf, hle⟩ := mkplan0_pre (-1) g
  have hlim : ∀ w, limit E w = -1 := by intro w; unfold limit; rw [hE.tl w]
  have hfe : ∀ w ∈ commOf p, f w = ⟨pf.l, pf.u, pf.tli, hi⟩ := by
    intro w hw
    have := hf w hw
    rw [hlim w, hpf] at this
    exact (Except.ok.inj this).symm
  rw [mkplan_nto hc (fun w hw => by rw [upd_in hw]; exact hws)]
  set sts1 := upd (commOf p) (fun _ st => { st with timedOut := false }) (upd (commOf p) (fun w st => { st with flags := f w, wstate := ws }) sts) with hs1
  have hs : Sync (commOf p) ⟨pf.l, pf.u, pf.tli, nt⟩ ws sts1 sts1 := by
    refine ⟨fun _ _ => rfl, fun w hw => ?_, fun w hw => ?_, fun w hw => ?_⟩
    · rw [hs1, upd_in hw, upd_in hw]
      show Flags.mk (f w).l (f w).u (f w).tli (sts w).nthr = _
      rw [hfe w hw, h.2 w hw]
    · rw [hs1, upd_in hw, upd_in hw]; exact Or.inl rfl
    · rw [hs1, upd_in hw]
  refine Ok.mono (mkplan_ok hE n p sts1 ⟨pf.l, pf.u, pf.tli, nt⟩ ws hc hn (Or.inl hle) hs) fun r hr => ?_
  refine ⟨⟨fun w hw => ?_, fun w hw => ?_, hr.same⟩, fun f e => ⟨g, n, _, pf, hg, hpf, rfl, hr.plan f e⟩⟩
  · rw [hr.sync.out w hw, hs1, upd_out hw, upd_out hw]; exact h.1 w hw
  · have := congrArg Flags.nthr (hr.sync.seen w hw)
    have e : (canon ⟨pf.l, pf.u, pf.tli, nt⟩).nthr = nt := by unfold canon; split <;> rfl
    rw [e] at this
    exact this

theorem retryBogus_ok (hE : Fine S E) (hc : commOf p ≠ []) (hn : (commOf p).Nodup) {flags g : U32} (hg : SameWish g flags) {hi : BitVec 3} {pln : Option MPlan}
    (h : PostA S E p flags nt s0 (pln, sts)) : Ok (retryBogus E n g p hi pln sts) (PostA S E p flags nt s0) := by
  unfold retryBogus
  refine Ok.bind (allState_ok hc h.1) fun b _ => ?_
  cases b
  · rw [if_neg (by decide)]; exact h
  · rw [if_pos rfl]
    refine Ok.bind (forgetAll_ok h.1) fun sts1 h1 => ?_
    refine Ok.bind (mkplan0_ok hE hc hn hg (by decide) h1.idle) fun r h2 => ?_
    obtain ⟨r, sts2⟩ := r
    refine Ok.bind (allState_ok hc h2.1) fun b _ => ?_
    cases b
    · rw [if_neg (by decide)]; exact h2
    · rw [if_pos rfl]
      exact Ok.bind (forgetAll_ok h2.1) fun sts3 h3 => mkplan0_ok hE hc hn ((forceEstimator_wish g).trans hg) (by decide) h3.idle

theorem apiMkplan_ok (hE : Fine S E) (hc : commOf p ≠ []) (hn : (commOf p).Nodup) {flags g : U32} (hg : SameWish g flags) {hi : BitVec 3}
    (h : Idle (commOf p) nt s0 sts) : Ok (apiMkplan E n g p hi sts) (PostA S E p flags nt s0) := by
  unfold apiMkplan
  refine Ok.bind (mkplan0_ok hE hc hn hg (by decide) h) fun r h1 => ?_
  obtain ⟨r, sts1⟩ := r
  refine Ok.bind (allState_ok hc h1.1) fun b _ => ?_
  split
  · refine Ok.bind (mkplan0_ok hE hc hn ((forceEstimator_wish g).trans hg) (by decide) h1.1.idle) fun r h2 => ?_
    exact retryBogus_ok hE hc hn hg h2
  · exact retryBogus_ok hE hc hn hg h1

theorem patLoop_ok (hE : Fine S E) (hc : commOf p ≠ []) (hn : (commOf p).Nodup) {flags f0 : U32} (hf : SameWish f0 flags) (L : List U32) (hL : ∀ x ∈ L, x &&& 0x68#32 = x) :
    ∀ {pln : Option MPlan} {used : U32} {sts : PSts}, (∀ f, pln = some f → SameWish used flags ∧ Planned S E p flags f) → (L = [] → Rest (commOf p) nt s0 sts) → Idle (commOf p) nt s0 sts →
      Ok (patLoop E n f0 p L pln used sts) fun r => Rest (commOf p) nt s0 r.2.2 ∧ ∀ f, r.1 = some f → SameWish r.2.1 flags ∧ Planned S E p flags f := by
  induction L with
  | nil => exact fun hp h _ => ⟨h rfl, hp⟩
  | cons x L ih =>
    intro pln used sts hp _ h
    rw [patLoop]
    have hw : SameWish (f0 ||| x) flags := (SameWish.set (hL x List.mem_cons_self) f0).trans hf
    refine Ok.bind (apiMkplan_ok hE hc hn hw h) fun r h1 => ?_
    obtain ⟨r, sts1⟩ := r
    cases r with
    | none => exact ⟨h1.1, hp⟩
    | some f => exact ih (fun y hy => hL y (List.mem_cons_of_mem _ hy)) (fun g e => ⟨hw, h1.2 g e⟩) (fun _ => h1.1) h1.1.idle

theorem patLevels_ne (flags : U32) : patLevels (-1) flags ≠ [] := by
  unfold patLevels
  simp only [if_neg (show ¬ ((-1 : ℝ) ≥ 0) by norm_num)]
  have key : ∀ (L : List U32) (k : ℕ), k < L.length → (L.take (k + 1)).drop k ≠ [] := by
    intro L k hk h
    have := congrArg List.length h
    rw [List.length_drop, List.length_take, List.length_nil] at this
    omega
  refine key _ _ ?_
  show _ < 4
  split
  · omega
  · split
    · omega
    · split <;> omega

theorem mkapiplan_ok (hE : Fine S E) (hc : commOf p ≠ []) (hn : (commOf p).Nodup) {flags : U32} (h : Idle (commOf p) nt s0 sts) :
    Ok (mkapiplan E n flags p sts) (PostA S E p flags nt s0) := by
  unfold mkapiplan
  have h1 : Ok (firstPlan E n flags p sts) fun r => Rest (commOf p) nt s0 r.2.2 ∧ ∀ f, r.1 = some f → SameWish r.2.1 flags ∧ Planned S E p flags f := by
    unfold firstPlan
    split
    · refine Ok.bind (mkplan0_ok hE hc hn (SameWish.refl flags) (by decide) h) fun r h2 => ?_
      exact ⟨h2.1, fun f e => ⟨SameWish.refl _, h2.2 f e⟩⟩
    · refine Ok.bind (agree_eq hc (v := patLevels (-1) flags) fun w _ => ?_) fun L hL => ?_
      · unfold limit; rw [hE.tl w]
      · refine patLoop_ok hE hc hn ?_ _ ?_ (fun f e => by simp at e) ?_ h
        · rw [patmask_eq]; exact SameWish.clear (by decide) flags
        · rw [hL]; exact patLevels_wish (-1) flags
        · intro e
          rw [hL] at e
          exact absurd e (patLevels_ne flags)
  refine Ok.bind h1 fun r h2 => ?_
  obtain ⟨r, used, sts1⟩ := r
  have h3 : Ok (recreate E n p r used sts1) (PostA S E p flags nt s0) := by
    unfold recreate
    cases r with
    | none => exact ⟨h2.1, fun f e => by simp at e⟩
    | some f =>
      refine Ok.bind (apiMkplan_ok hE hc hn (h2.2 f rfl).1 h2.1.idle) fun r h4 => ?_
      obtain ⟨r, sts2⟩ := r
      cases r with
      | none => intro h; simp at h
      | some g => exact h4
  refine Ok.bind h3 fun r h4 => ?_
  obtain ⟨r, sts2⟩ := r
  exact Ok.bind (forgetAll_ok h4.1) fun sts3 h5 => ⟨h5, h4.2⟩

end FFTW.Mpi.MPlanner
