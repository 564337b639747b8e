import Verif.Spec.MpiSound
import Verif.Proofs.MpiPlanner
import Verif.Proofs.MpiXchg

/-! planning in step -/

namespace FFTW.Mpi.MPlanner
open FFTW.Planner

/-- no desync, and the result satisfies `Q` -/
def Ok {α : Type} (m : MRes α) (Q : α → Prop) : Prop :=
  match m with
  | .ok a => Q a
  | .error e => e ≠ .desync

theorem Ok.bind {α β : Type} {m : MRes α} {f : α → MRes β} {Q : α → Prop} {R : β → Prop} (h : Ok m Q) (hf : ∀ a, Q a → Ok (f a) R) : Ok (m >>= f) R := by
  cases m with
  | error e => exact h
  | ok a => exact hf a h

theorem Ok.mono {α : Type} {m : MRes α} {Q R : α → Prop} (h : Ok m Q) (hf : ∀ a, Q a → R a) : Ok m R := by
  cases m with
  | error e => exact h
  | ok a => exact hf a h

/-- processes agree -/
def Const {α : Type} (c : Comm) (f : ℕ → α) : Prop := ∀ w ∈ c, f w = f (c.at 0)

theorem at0 {c : Comm} (hc : c ≠ []) : c.at 0 ∈ c := by
  cases c with
  | nil => exact absurd rfl hc
  | cons a l => exact List.mem_cons_self

theorem const_of {α : Type} {c : Comm} (hc : c ≠ []) {f : ℕ → α} {v : α} (h : ∀ w ∈ c, f w = v) : Const c f := fun w hw => (h w hw).trans (h _ (at0 hc)).symm

theorem agree_ok {α : Type} [DecidableEq α] {c : Comm} {f : ℕ → α} (h : Const c f) : Ok (agree c f) fun v => v = f (c.at 0) := by
  unfold agree
  rw [if_pos (show ∀ w ∈ c, f w = f (c.at 0) from h)]
  exact rfl

theorem agree_eq {α : Type} [DecidableEq α] {c : Comm} (hc : c ≠ []) {f : ℕ → α} {v : α} (h : ∀ w ∈ c, f w = v) : Ok (agree c f) fun b => b = v :=
  (agree_ok (const_of hc h)).mono fun _ hb => hb.trans (h _ (at0 hc))

theorem each_ok {α : Type} {c : Comm} {d : ℕ → α} {f : ℕ → Res α} : Ok (each c d f) fun r => ∀ w ∈ c, f w = .ok (r w) := by
  unfold each
  split
  · intro h; simp at h
  · rename_i h
    intro w hw
    have := List.findSome?_eq_none_iff.1 h w hw
    simp only
    cases hf : f w with
    | error e => rw [hf] at this; simp at this
    | ok a => rfl

theorem upd_in {c : Comm} {g : ℕ → PSt → PSt} {sts : PSts} {w : ℕ} (h : w ∈ c) : upd c g sts w = g w (sts w) := if_pos h
theorem upd_out {c : Comm} {g : ℕ → PSt → PSt} {sts : PSts} {w : ℕ} (h : w ∉ c) : upd c g sts w = sts w := if_neg h

/-- The processes of `c` are in step: same flags, same number of threads, the wisdom state is `W` or WISDOM_IS_BOGUS, no timeout.  Other processes are as in `s0`. -/
structure Sync (c : Comm) (fl : Flags) (W : WState) (s0 sts : PSts) : Prop where
  out : ∀ w, w ∉ c → sts w = s0 w
  seen : ∀ w ∈ c, (sts w).seen = fl
  wst : ∀ w ∈ c, (sts w).wstate = W ∨ (sts w).wstate = .bogus
  nto : ∀ w ∈ c, (sts w).timedOut = false

variable {c : Comm} {fl : Flags} {W : WState} {s0 sts : PSts}

theorem Sync.upd (h : Sync c fl W s0 sts) {g : ℕ → PSt → PSt} (hg : ∀ w ∈ c, (g w (sts w)).seen = (sts w).seen ∧ (g w (sts w)).wstate = (sts w).wstate ∧
    (g w (sts w)).timedOut = (sts w).timedOut) : Sync c fl W s0 (MPlanner.upd c g sts) := by
  refine ⟨fun w hw => by rw [upd_out hw]; exact h.out w hw, fun w hw => ?_, fun w hw => ?_, fun w hw => ?_⟩
  · rw [upd_in hw, (hg w hw).1]; exact h.seen w hw
  · rw [upd_in hw, (hg w hw).2.1]; exact h.wst w hw
  · rw [upd_in hw, (hg w hw).2.2]; exact h.nto w hw

theorem Sync.tick (h : Sync c fl W s0 sts) : Sync c fl W s0 (ticked c sts) := h.upd fun _ _ => ⟨rfl, rfl, rfl⟩

theorem Sync.est (h : Sync c fl W s0 sts) : ∀ w ∈ c, (sts w).estimatep = decide (fl.u &&& ESTIMATE ≠ 0) := by
  intro w hw
  have := congrArg Flags.u (h.seen w hw)
  unfold PSt.estimatep
  rw [← this]; rfl

theorem Sync.bel (h : Sync c fl W s0 sts) : ∀ w ∈ c, (sts w).believep = decide (fl.u &&& BELIEVE_PCOST ≠ 0) := by
  intro w hw
  have := congrArg Flags.u (h.seen w hw)
  unfold PSt.believep
  rw [← this]; rfl

theorem repeatLoop_ok {E : MEnv} (hc : c ≠ []) (n : ℕ) : ∀ {first : Bool} {tmin : ℕ → Int} {sts : PSts}, Const c tmin → Sync c fl W s0 sts →
    Ok (repeatLoop E c n first tmin sts) fun r => (∀ t, r.1 = some t → Const c t) ∧ Sync c fl W s0 r.2 := by
  induction n with
  | zero => exact fun ht hs => ⟨fun t e => by obtain rfl := Option.some.inj e; exact ht, hs⟩
  | succ n ih =>
    intro first tmin sts ht hs
    rw [repeatLoop]
    refine Ok.bind (agree_ok fun _ _ => rfl) fun b _ => ?_
    cases b
    · rw [if_neg (by decide)]
      have ht2 : Const c fun w => if first || decide (costHook c (fun w => E.time w (sts w).tick) w < tmin w) then costHook c (fun w => E.time w (sts w).tick) w else tmin w := by
        intro w hw
        simp only [ht w hw]
        rfl
      refine Ok.bind (agree_ok fun _ _ => rfl) fun b _ => ?_
      cases b
      · rw [if_neg (by decide)]
        exact ih ht2 hs.tick.tick
      · rw [if_pos rfl]
        exact ⟨fun t e => by obtain rfl := Option.some.inj e; exact ht2, hs.tick.tick⟩
    · rw [if_pos rfl]
      exact ⟨fun t e => by simp at e, hs.tick⟩

theorem measure_ok {E : MEnv} (hc : c ≠ []) (n : ℕ) : ∀ {k : ℕ} {sts : PSts}, Sync c fl W s0 sts →
    Ok (measure E c n k sts) fun r => Const c r.1 ∧ Sync c fl W s0 r.2 := by
  induction n with
  | zero => intro k sts _ h; simp at h
  | succ n ih =>
    intro k sts hs
    rw [measure]
    refine Ok.bind (repeatLoop_ok hc 8 (fun _ _ => rfl) hs) fun r hr => ?_
    obtain ⟨t, sts⟩ := r
    cases t with
    | none => exact ih hr.2
    | some t =>
      have ht := hr.1 t rfl
      refine Ok.bind (agree_ok fun w hw => by simp only [ht w hw]) fun b _ => ?_
      cases b
      · rw [if_neg (by decide)]; exact ih hr.2
      · rw [if_pos rfl]
        exact ⟨fun w hw => by simp only [ht w hw], hr.2⟩

theorem evaluatePlan_ok {E : MEnv} {n : ℕ} (hc : c ≠ []) {b : MBPlan} (hb : Const c b.pcost) (hs : Sync c fl W s0 sts) :
    Ok (evaluatePlan E n c b sts) fun r => r.1.pl = b.pl ∧ Const c r.1.pcost ∧ Sync c fl W s0 r.2 := by
  unfold evaluatePlan
  refine Ok.bind (agree_ok fun w hw => ?_) fun x _ => ?_
  · rw [hs.est w hw, hs.est _ (at0 hc), hs.bel w hw, hs.bel _ (at0 hc), hb w hw]
  · cases x
    · rw [if_neg (by decide)]
      exact ⟨rfl, hb, hs⟩
    · rw [if_pos rfl]
      have hs1 : Sync c fl W s0 (MPlanner.upd c (fun _ st => { st with nplan := st.nplan + 1 }) sts) := hs.upd fun _ _ => ⟨rfl, rfl, rfl⟩
      refine Ok.bind (agree_ok fun w hw => ?_) fun x _ => ?_
      · rw [hs1.est w hw, hs1.est _ (at0 hc)]
      · cases x
        · rw [if_neg (by decide)]
          refine Ok.bind (measure_ok hc n hs1) fun r hr => ?_
          obtain ⟨t, sts⟩ := r
          have := hr.2.upd (g := fun _ st => { st with needCheck := true }) fun _ _ => ⟨rfl, rfl, rfl⟩
          exact ⟨rfl, hr.1, this⟩
        · rw [if_pos rfl]
          exact ⟨rfl, fun _ _ => rfl, hs1.tick⟩

theorem timeoutP_ok {E : MEnv} (htl : ∀ w, E.tl w = none) (hc : c ≠ []) {call : ℕ → Bool} (hs : Sync c fl W s0 sts) :
    Ok (timeoutP E c call sts) fun r => r.1 = false ∧ Sync c fl W s0 r.2 := by
  unfold timeoutP
  refine Ok.bind (agree_eq hc (v := false) fun w hw => by simp [htl w]) fun x hx => ?_
  subst hx
  rw [if_neg (by decide)]
  refine Ok.bind (agree_eq hc (v := false) fun w hw => by simp [hs.nto w hw]) fun x hx => ?_
  refine ⟨hx, hs.upd fun w _ => ?_⟩
  split
  · exact ⟨rfl, rfl, rfl⟩
  · exact ⟨rfl, rfl, rfl⟩

theorem checkBogosity_ok (hc : c ≠ []) (hs : Sync c fl W s0 sts) :
    Ok (checkBogosity c sts) fun r => Sync c fl W s0 r.2 ∧ (r.1 = false → W ≠ .bogus ∧ ∀ w ∈ c, (r.2 w).wstate = W) := by
  unfold checkBogosity
  simp only
  cases hany : c.any fun w => decide ((sts w).wstate = .bogus) with
  | true =>
    have e : anyTrue c (fun w => decide ((sts w).wstate = .bogus)) = fun _ => true := by funext w; exact hany
    rw [e]
    simp only [if_true]
    have hs1 : Sync c fl W s0 (MPlanner.upd c (fun _ st => { st with wstate := .bogus }) sts) := by
      refine ⟨fun w hw => by rw [upd_out hw]; exact hs.out w hw, fun w hw => ?_, fun w hw => ?_, fun w hw => ?_⟩
      · rw [upd_in hw]; exact hs.seen w hw
      · rw [upd_in hw]; exact Or.inr rfl
      · rw [upd_in hw]; exact hs.nto w hw
    refine Ok.bind (agree_eq hc (v := true) fun w hw => by rw [upd_in hw]; rfl) fun x hx => ?_
    exact ⟨hs1, fun h => by rw [show x = true from hx] at h; simp at h⟩
  | false =>
    have e : anyTrue c (fun w => decide ((sts w).wstate = .bogus)) = fun _ => false := by funext w; exact hany
    rw [e]
    simp only [Bool.false_eq_true, if_false]
    have hnb : ∀ w ∈ c, (sts w).wstate ≠ .bogus := by
      intro w hw
      have := List.any_eq_false.1 hany w hw
      simpa using this
    have hW : ∀ w ∈ c, (sts w).wstate = W := fun w hw => (hs.wst w hw).resolve_right (hnb w hw)
    have hs1 : Sync c fl W s0 (MPlanner.upd c (fun _ st => st) sts) := hs.upd fun _ _ => ⟨rfl, rfl, rfl⟩
    refine Ok.bind (agree_eq hc (v := false) fun w hw => by rw [upd_in hw]; exact decide_eq_false (hnb w hw)) fun x hx => ?_
    have hw1 : ∀ w ∈ c, (MPlanner.upd c (fun _ st => st) sts w).wstate = W := fun w hw => by rw [upd_in hw]; exact hW w hw
    exact ⟨hs1, fun _ => ⟨fun h => hnb _ (at0 hc) ((hW _ (at0 hc)).trans h), hw1⟩⟩

end FFTW.Mpi.MPlanner
