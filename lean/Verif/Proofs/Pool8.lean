import Verif.Proofs.Pool7
/-!
# The thread-pool invariant holds in every execution
-/

namespace FFTW.Pool
open FFTW.Spawn

variable {s s' : Sys} {g g' : Ghost} {t : Tid}

mutual
theorem Ret.no_dist {J J' k : ℕ} {r : Job} {st : List Frame} (h : Ret g t J st) {f : Frame} (hf : f ∈ st) (hj : ofJob J' f) (hp : g.ph J' = some (t, r, .dist k)) : False := by
  cases h with
  | app m hm hv =>
    obtain rfl := List.mem_singleton.1 hf
    obtain ⟨r, φ, h1⟩ := hj; simp [jphase] at h1
  | run hl hi hr =>
    rcases List.mem_cons.1 hf with rfl | hf
    · obtain ⟨r, φ, h1⟩ := hj; simp [jphase] at h1
    · exact hr.no_dist hf hj hp
theorem RunOK.no_dist {J J' i k : ℕ} {r : Job} {st : List Frame} (h : RunOK g t J i st) {f : Frame} (hf : f ∈ st) (hj : ofJob J' f) (hp : g.ph J' = some (t, r, .dist k)) : False := by
  cases h with
  | worker w hw hx =>
    obtain rfl := List.mem_singleton.1 hf
    obtain ⟨r, φ, h1⟩ := hj; simp [jphase] at h1
  | self r' hp' hi hr =>
    rcases List.mem_cons.1 hf with rfl | hf
    · obtain ⟨r'', φ, h1⟩ := hj
      simp only [jphase, Option.some.injEq, Prod.mk.injEq] at h1
      obtain ⟨rfl, rfl, rfl⟩ := h1
      rw [hp] at hp'; simp at hp'
    · exact hr.no_dist hf hj hp
end

/-- the distribution loop stays within the array -/
theorem Inv.dist_le (I : Inv s g) {J k : ℕ} {r : Job} (hp : g.ph J = some (t, r, .dist k)) : k < r.blocks.length := by
  obtain ⟨f, hf, hj⟩ := (I.job J t r _ hp).frm
  have h := I.stk t
  have : ∀ f ∈ s.stack t, ofJob J f → ∃ st, s.stack t = f :: st := by
    intro f hf hj
    cases hst : s.stack t with
    | nil => rw [hst] at hf; cases hf
    | cons f0 st =>
      rw [hst] at hf h
      have hdeep : ∀ {J' st}, Ret g t J' st → f ∈ st → False := fun {J' st} hr hf => by
        have := hr.no_dist hf hj hp
        exact this
      have hdeep' : ∀ {J' i st}, RunOK g t J' i st → f ∈ st → False := fun {J' i st} hr hf => by
        have := hr.no_dist hf hj hp
        exact this
      cases h with
      | app m hm hv =>
        obtain rfl := List.mem_singleton.1 hf; exact ⟨_, rfl⟩
      | worker w hw hf' =>
        obtain rfl := List.mem_singleton.1 hf; exact ⟨_, rfl⟩
      | run hr hi =>
        rcases List.mem_cons.1 hf with rfl | hf
        · exact ⟨_, rfl⟩
        · exact (hdeep' hr hf).elim
      | job hj' hp' hx hr =>
        rcases List.mem_cons.1 hf with rfl | hf
        · exact ⟨_, rfl⟩
        · exact (hdeep hr hf).elim
      | kill m hm hx hv =>
        rcases List.mem_cons.1 hf with rfl | hf
        · exact ⟨_, rfl⟩
        · obtain rfl := List.mem_singleton.1 hf
          obtain ⟨r, φ, h1⟩ := hj; simp [jphase] at h1
  obtain ⟨st, hst⟩ := this f hf hj
  obtain ⟨r', φ', hj'⟩ := hj
  obtain ⟨hp', hx, -⟩ := I.top hst hj'
  rw [hp] at hp'
  simp only [Option.some.injEq, Prod.mk.injEq, true_and] at hp'
  obtain ⟨rfl, rfl⟩ := hp'
  cases f <;> simp only [jphase, Option.some.injEq, Prod.mk.injEq, reduceCtorEq, and_false, Phase.dist.injEq] at hj' <;> simp only [FX] at hx <;>
    obtain ⟨rfl, rfl, rfl⟩ := hj' <;> omega

theorem stepWorker_good (I : Inv s g) {w : ℕ} {f : Frame} {st : List Frame} (hs : s.stack (.wk w) = f :: st)
    (hf : f = .wait ∨ f = .fetch ∨ f = .signal ∨ f = .exit) : Good (stepWorker w s st f) := by
  obtain rfl : st = [] := by
    have := I.stk (.wk w)
    rw [hs] at this
    cases this with
    | worker => rfl
    | app m hm => cases hm
    | run => simp at hf
    | job hj => rcases hf with rfl | rfl | rfl | rfl <;> simp [jphase] at hj
    | kill m hm => cases hm
  have hw := I.wrk w
  rcases hf with rfl | rfl | rfl | rfl
  · -- wait
    cases ho : g.own w with
    | dead => simp only [WInv, ho, hs] at hw; simp at hw
    | queue => simp only [WInv, ho] at hw; simp [stepWorker, hw.1, hw.2.1, Good]
    | held t => simp only [WInv, ho] at hw; simp [stepWorker, hw.1, hw.2.1, Good]
    | asg J i =>
      simp only [WInv, ho] at hw
      simp only [stepWorker, hw.1, if_true]
      split
      · trivial
      · rename_i hr; exact ⟨g, inv_wait I hs ho hr⟩
    | dying =>
      simp only [WInv, ho] at hw
      simp only [stepWorker, hw.1, if_true]
      split
      · trivial
      · rename_i hr
        obtain ⟨hc, k, m, p, hm, hv, hlk, hsk, hx⟩ := I.killer_down ho (by rw [hs]; simp) (.inl hr)
        have h1 := hx.2.2
        simp only [hs] at h1
        obtain ⟨ht, hr1⟩ : s.term = 0 ∧ s.ready w = 1 := by
          rcases h1.2 with ⟨h2, h3 | h3 | h3⟩ | h2
          · exact ⟨h2, h3.1⟩
          · exact absurd h3.1 hr
          · exact absurd h3.1 hr
          · simp at h2
        have := inv_dying I (w := w) (rd := s.ready w - 1) (tm := s.term) (st' := [.fetch]) ho (by rw [hs]; simp) (.inl hr) (.inl ⟨ht, by omega, .inl rfl⟩)
        exact ⟨g, this⟩
  · -- fetch
    cases ho : g.own w with
    | dead => simp only [WInv, ho, hs] at hw; simp at hw
    | queue => simp only [WInv, ho, hs] at hw; simp at hw
    | held t => simp only [WInv, ho, hs] at hw; simp at hw
    | asg J i =>
      obtain ⟨t1, r, φ, hp⟩ := I.asg_ph ho
      have hJ := I.job J t1 r φ hp
      obtain ⟨hout, -, hsl, ha, -⟩ := I.asg_phase ho hp
      obtain ⟨f0, hf0, -⟩ := hJ.frm
      have hi : i < r.blocks.length := by
        cases φ with
        | dist k =>
          simp only [Phase.out] at hout
          by_contra hcon
          -- the distribution loop does not run past the end
          exact absurd (I.dist_le hp) (by omega)
        | self => simp only [Phase.out] at hout; omega
        | coll k => simp only [Phase.out] at hout; omega
      have hd : r.blocks[i]? = some r.blocks[i] := List.getElem?_eq_getElem hi
      simp only [stepWorker, ha, if_true, hsl, hJ.job, hd]
      exact ⟨g, inv_fetch I hs ho hJ.job hd⟩
    | dying =>
      simp only [WInv, ho] at hw
      obtain ⟨hc, k, m, p, hm, hv, hlk, hsk, hx⟩ := I.killer_down ho (by rw [hs]; simp) (.inr (by rw [hs]; simp))
      simp only [stepWorker, hw.1, if_true, hw.2.1, hc]
      have h1 := hx.2.2
      simp only [hs] at h1
      obtain ⟨ht, hr1⟩ : s.term = 0 ∧ s.ready w = 0 := by
        rcases h1.2 with ⟨h2, h3 | h3 | h3⟩ | h2
        · simp at h3
        · exact ⟨h2, h3.1⟩
        · simp at h3
        · simp at h2
      have := inv_dying I (w := w) (rd := s.ready w) (tm := s.term) (st' := [.exit]) ho (by rw [hs]; simp) (.inr (by rw [hs]; simp)) (.inl ⟨ht, hr1, .inr rfl⟩)
      rw [Function.update_eq_self w s.ready] at this
      exact ⟨g, this⟩
  · -- signal
    cases ho : g.own w with
    | dead => simp only [WInv, ho, hs] at hw; simp at hw
    | queue => simp only [WInv, ho, hs] at hw; simp at hw
    | held t => simp only [WInv, ho, hs] at hw; simp at hw
    | asg J i =>
      simp only [WInv, ho] at hw
      simp only [stepWorker, hw.1, if_true]
      exact ⟨g, inv_signal I hs ho⟩
    | dying =>
      obtain ⟨hc, k, m, p, hm, hv, hlk, hsk, hx⟩ := I.killer_down ho (by rw [hs]; simp) (.inr (by rw [hs]; simp))
      have h1 := hx.2.2
      simp only [hs] at h1
      simp at h1
  · -- exit
    cases ho : g.own w with
    | dead => simp only [WInv, ho, hs] at hw; simp at hw
    | queue => simp only [WInv, ho, hs] at hw; simp at hw
    | held t => simp only [WInv, ho, hs] at hw; simp at hw
    | asg J i =>
      simp only [WInv, ho, Stage, hs] at hw
      simp at hw
    | dying =>
      obtain ⟨hc, k, m, p, hm, hv, hlk, hsk, hx⟩ := I.killer_down ho (by rw [hs]; simp) (.inr (by rw [hs]; simp))
      have h1 := hx.2.2
      simp only [hs] at h1
      obtain ⟨ht, hr1⟩ : s.term = 0 ∧ s.ready w = 0 := by
        rcases h1.2 with ⟨h2, h3 | h3 | h3⟩ | h2
        · simp at h3
        · simp at h3
        · exact ⟨h2, h3.1⟩
        · simp at h2
      have := inv_dying I (w := w) (rd := s.ready w) (tm := s.term + 1) (st' := []) ho (by rw [hs]; simp) (.inr (by rw [hs]; simp)) (.inr ⟨by omega, rfl⟩)
      rw [Function.update_eq_self w s.ready] at this
      exact ⟨g, this⟩

theorem stepKill_good (I : Inv s g) {f : Frame} {st : List Frame} (hs : s.stack t = f :: st)
    (hf : f = .killLoop ∨ (∃ w, f = .killUp w) ∨ (∃ w, f = .killDown w) ∨ ∃ w, f = .killFree w) : Good (stepKill t s st f) := by
  obtain ⟨m, p, hm, rfl, hv, hx⟩ := I.kill_top hs hf
  rcases hf with rfl | ⟨w, rfl⟩ | ⟨w, rfl⟩ | ⟨w, rfl⟩
  · simp only [stepKill]
    split
    · rename_i hh
      rw [if_pos hx.1]
      exact ⟨g, (inv_killEnd I hs hh).2⟩
    · rename_i w hh
      obtain ⟨ha, g', hg⟩ := inv_killPop I hs hh
      rw [if_pos ha]
      exact ⟨g', hg⟩
  · obtain ⟨ha, hg⟩ := inv_killUp I hs
    simp only [stepKill, if_pos ha]
    exact ⟨g, hg⟩
  · simp only [stepKill]
    split
    · trivial
    · rename_i ht; exact ⟨g, inv_killDown I hs ht⟩
  · obtain ⟨ha, g', hg⟩ := inv_killFree I hs
    simp only [stepKill, if_pos ha]
    exact ⟨g', hg⟩

theorem Good.spawn {f f' : Frame} {st0 : List Frame} {lm n : ℤ} {body : SpawnData → Prog} {ds : List SpawnData} (hsp : spawnLoop lm n = some ds)
    (h : ∀ s', spawn t s (f' :: st0) lm n body = .next s' → ∃ g', Inv s' g') : Good (spawn t s (f' :: st0) lm n body) := by
  cases hr : Pool.spawn t s (f' :: st0) lm n body with
  | blocked => trivial
  | fault =>
    simp only [Pool.spawn, hsp] at hr
    cases ds <;> simp at hr
  | next s' => exact h s' hr

theorem stepCode_good (I : Inv s g) {f : Frame} {st : List Frame} (hs : s.stack t = f :: st) (hf : (∃ p, f = .app p) ∨ ∃ J i p, f = .run J i p) :
    Good (stepCode t s st f) := by
  have hsok := I.stk t
  rw [hs] at hsok
  rcases hf with ⟨p, rfl⟩ | ⟨J, i, p, rfl⟩
  · obtain ⟨m, hm, hv, rfl⟩ : ∃ m, t = .master m ∧ p.Valid ∧ st = [] := by
      cases hsok with
      | app m hm hv => exact ⟨m, hm, hv, rfl⟩
      | worker w hw hf => simp at hf
      | job hj => simp [jphase] at hj
      | kill m hm hx hv => exact absurd hx.2.2 (by simp)
    cases p with
    | done => trivial
    | loop lm n body rest =>
      simp only [Prog.Valid] at hv
      obtain ⟨⟨ds, hsp, hin⟩, hv⟩ := hv
      simp only [stepCode]
      split
      · trivial
      · rename_i hc
        refine Good.spawn hsp (f := .app rest) (fun s' h => ?_)
        exact inv_spawn I hs (by simpa using hc) (fun J ⟨r, φ, h⟩ => by simp [jphase] at h) (by simp [crit]) (by simp [Holds]) (.app m hm hv) (.app m hm hv)
          (fun w h => by rw [hm] at h; cases h) hsp hin h
    | cleanup rest =>
      simp only [stepCode]
      split
      · trivial
      · rename_i hc
        simp only [Bool.or_eq_true, Bool.not_eq_true', not_or, Bool.not_eq_true, Option.isSome_eq_false_iff, Option.isNone_iff_eq_none, Bool.not_eq_false] at hc
        exact ⟨g, inv_cleanup I hs hc.1 hc.2⟩
  · obtain ⟨hr, hi⟩ : RunOK g t J i st ∧ p.Inner := by
      cases hsok with
      | run hr hi => exact ⟨hr, hi⟩
      | worker w hw hf => simp at hf
      | job hj => simp [jphase] at hj
      | kill m hm hx hv => exact absurd hx.2.2 (by simp)
    obtain ⟨x, hpJ⟩ : ∃ x, g.ph J = some x := by
      cases hr with
      | worker w hw ho => obtain ⟨_, _, _, h⟩ := I.asg_ph ho; exact ⟨_, h⟩
      | self r hp => exact ⟨_, hp⟩
    cases p with
    | cleanup rest => simp [Prog.Inner] at hi
    | done =>
      simp only [stepCode]
      cases hr with
      | worker w hw ho =>
        subst hw
        exact ⟨g, inv_doneWorker I hs ho⟩
      | self r hp hi2 hr => exact inv_doneSelf I hs hp hi2 hr
    | loop lm n body rest =>
      simp only [Prog.Inner] at hi
      obtain ⟨⟨ds, hsp, hin⟩, hv⟩ := hi
      simp only [stepCode]
      refine Good.spawn hsp (f := .app rest) (fun s' h => ?_)
      refine inv_spawn I hs (I.active hpJ) (fun J ⟨r, φ, h⟩ => by simp [jphase] at h) (by simp [crit]) (by simp [Holds]) (.run (I.lt hpJ) hv hr) (.run hr hv)
          (fun w h => ?_) hsp hin h
      cases hr <;> simp

/-- no step faults, and every step preserves the invariant -/
theorem step_good (I : Inv s g) (t : Tid) (fresh : ℕ) : Good (step t fresh s) := by
  unfold step
  split
  · trivial
  · rename_i f st hs
    have hsok := I.stk t
    rw [hs] at hsok
    cases f
    case app p => exact stepCode_good I hs (.inl ⟨p, rfl⟩)
    case run J i p => exact stepCode_good I hs (.inr ⟨J, i, p, rfl⟩)
    case killLoop => exact stepKill_good I hs (.inl rfl)
    case killUp w => exact stepKill_good I hs (.inr (.inl ⟨w, rfl⟩))
    case killDown w => exact stepKill_good I hs (.inr (.inr (.inl ⟨w, rfl⟩)))
    case killFree w => exact stepKill_good I hs (.inr (.inr (.inr ⟨w, rfl⟩)))
    case wait | fetch | signal | exit =>
      obtain ⟨w, rfl⟩ : ∃ w, t = .wk w := by
        cases hsok with
        | worker w hw _ => exact ⟨w, hw⟩
        | job hj => simp [jphase] at hj
        | kill m hm hx => exact absurd hx.2.2 (by simp)
      exact stepWorker_good I hs (by simp)
    all_goals exact stepJob_good I hs rfl fresh

/-- the initial ghost state -/
def g0 : Ghost := ⟨fun _ => .dead, fun _ => none, [], fun _ => none⟩

theorem inv_init {progs : List Prog} (hv : ∀ p ∈ progs, p.Valid) : Inv (init progs) g0 := by
  have hst : ∀ t, (init progs).stack t = [] ∨ ∃ m p, t = .master m ∧ p ∈ progs ∧ (init progs).stack t = [.app p] := by
    intro t
    cases t with
    | wk w => left; rfl
    | master m =>
      cases h : progs[m]? with
      | none => left; simp [init, h]
      | some p => right; exact ⟨m, p, rfl, List.mem_of_getElem? h, by simp [init, h]⟩
  constructor
  · intro t
    rcases hst t with h | ⟨m, p, hm, hp, h⟩ <;> rw [h]
    · exact .nil
    · exact .app m hm (hv p hp)
  · intro w; exact ⟨rfl, rfl⟩
  · intro J t r φ h; cases h
  · intro _ _; rfl
  · rfl
  · exact List.nodup_nil
  · intro w; simp [g0]
  · intro t h; cases h
  · intro h; cases h
  · intro _; rfl
  · intro J _; exact ⟨rfl, rfl⟩
  · exact ⟨0, fun _ _ => rfl⟩
  · intro m hm
    have : progs[m]? = none := List.getElem?_eq_none_iff.2 hm
    simp [init, this]
  · intro m hm
    have : progs[m]? = some progs[m] := List.getElem?_eq_getElem hm
    simp [init, this]
  · constructor
    · intro J ds _ h; cases h
    · intro J i _; exact ⟨rfl, rfl⟩
    · intro J i d h; cases h
    · intro J lm n h; cases h
    · intro J ds h; cases h
    · intro J l h; simp [init] at h
    · intro J i l h; simp [init] at h
    · intro J _ h; cases h

theorem Exec.inv {progs : List Prog} (hv : ∀ p ∈ progs, p.Valid) {n : ℕ} {s : Sys} (h : Exec progs n s) : ∃ g, Inv s g := by
  induction h with
  | start => exact ⟨g0, inv_init hv⟩
  | step t fresh _ hs ih =>
    obtain ⟨g, I⟩ := ih
    have := step_good I t fresh
    rw [hs] at this; exact this

end FFTW.Pool
