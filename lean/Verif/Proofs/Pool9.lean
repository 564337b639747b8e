import Verif.Proofs.Pool8
import Mathlib.Algebra.BigOperators.Group.Finset.Basic
import Mathlib.Algebra.Order.BigOperators.Group.Finset
/-!
# The thread pool: no deadlock, and every execution is finite
-/

namespace FFTW.Pool
open FFTW.Spawn

variable {s s' : Sys} {g g' : Ghost} {t : Tid}

/-! ## No deadlock -/

theorem Inv.lock_none (I : Inv s g) (hb : ∀ t fresh, step t fresh s = .blocked) : s.lock = none := by
  cases hl : s.lock with
  | none => rfl
  | some t =>
    exfalso
    obtain ⟨f, st, hs, hc⟩ := I.lck t hl
    have h1 := hb t 0
    cases f <;> simp only [crit] at hc <;> simp only [step, hs, stepJob, stepKill] at h1
    case deqRead => cases h1
    case deqPop J r i q => cases q <;> simp only [stepJob] at h1 <;> (try split at h1) <;> cases h1
    case deqUnlock J r i q => cases q <;> simp only at h1 <;> split at h1 <;> cases h1
    case enqLink => split at h1 <;> cases h1
    case enqSet => cases h1
    case enqUnlock => split at h1 <;> cases h1
    case killLoop => split at h1 <;> split at h1 <;> cases h1
    case killUp => split at h1 <;> cases h1
    case killFree => split at h1 <;> cases h1
    case killDown w =>
      split at h1 <;> [skip; cases h1]
      rename_i ht
      obtain ⟨m, p, hm, rfl, hv, hx⟩ := I.kill_top hs (.inr (.inr (.inl ⟨w, rfl⟩)))
      have h2 := hb (.wk w) 0
      have h3 := hx.2.2
      simp only at h3
      rcases h3 with ⟨_, ⟨_, h4 | h4 | h4⟩ | h4⟩
      · simp only [step, h4.2, stepWorker, h4.1] at h2
        split at h2 <;> simp at h2
      · simp only [step, h4.2, stepWorker] at h2
        split at h2 <;> [skip; cases h2]
        split at h2
        · cases h2
        · split at h2 <;> cases h2
        · split at h2
          · cases h2
          · split at h2 <;> cases h2
      · simp only [step, h4.2, stepWorker] at h2
        cases h2
      · omega

theorem spawn_ne_blocked {st : List Frame} {lm n : ℤ} {body : SpawnData → Prog} : spawn t s st lm n body ≠ .blocked := by
  unfold spawn
  split <;> simp

/-- a blocked call waits for a worker -/
theorem Inv.blocked_job (I : Inv s g) (hb : ∀ t fresh, step t fresh s = .blocked) {f : Frame} {st : List Frame} (hs : s.stack t = f :: st) {x : ℕ × Job × Phase}
    (hj : jphase f = some x) : ∃ J r i w, f = .coll J r i ∧ i + 1 ≠ r.blocks.length ∧ s.wq J i = some w ∧ s.done w = 0 := by
  have hl := I.lock_none hb
  obtain ⟨B, hB⟩ := I.fin
  have h1 := hb t B
  cases f <;> simp only [jphase, reduceCtorEq] at hj <;> simp only [step, hs, stepJob] at h1
  case dist J r i =>
    split at h1
    · split at h1 <;> cases h1
    · rw [hl] at h1; simp at h1
  case deqRead => cases h1
  case deqPop J r i q => cases q <;> simp only [stepJob] at h1 <;> (try split at h1) <;> cases h1
  case deqUnlock J r i q => cases q <;> simp only at h1 <;> split at h1 <;> cases h1
  case create => simp [hB B (Nat.le_refl _)] at h1
  case assign => split at h1 <;> cases h1
  case upReady =>
    split at h1
    · cases h1
    · split at h1 <;> cases h1
  case coll J r i =>
    split at h1
    · cases h1
    · rename_i hi
      split at h1
      · cases h1
      · rename_i w hw
        split at h1
        · split at h1
          · rename_i hd; exact ⟨J, r, i, w, rfl, hi, hw, hd⟩
          · cases h1
        · cases h1
  case enqLock => rw [hl] at h1; simp at h1
  case enqLink => split at h1 <;> cases h1
  case enqSet => cases h1
  case enqUnlock => split at h1 <;> cases h1

theorem Inv.no_run (hb : ∀ t fresh, step t fresh s = .blocked) {J i : ℕ} {p : Prog} {st : List Frame} (hs : s.stack t = .run J i p :: st) : False := by
  have h1 := hb t 0
  cases p <;> simp only [step, hs, stepCode] at h1
  · cases h1
  · exact spawn_ne_blocked h1
  · cases h1

theorem Inv.no_jobs (I : Inv s g) (hb : ∀ t fresh, step t fresh s = .blocked) (k : ℕ) : ∀ J, s.nextJob ≤ J + k → g.ph J = none := by
  induction k with
  | zero => intro J h; exact (I.nxt J h).1
  | succ k ih =>
    intro J hJ
    cases hp : g.ph J with
    | none => rfl
    | some x =>
      exfalso
      obtain ⟨t, r, φ⟩ := x
      have hup : ∀ J', J < J' → g.ph J' = none := fun J' h => ih J' (by omega)
      have hj := I.job J t r φ hp
      obtain ⟨f, hf, hof⟩ := hj.frm
      have h := I.stk t
      cases hst : s.stack t with
      | nil => rw [hst] at hf; cases hf
      | cons f0 st =>
        rw [hst] at h hf
        cases h with
        | app m hm hv =>
          obtain rfl := List.mem_singleton.1 hf
          obtain ⟨r, φ, h1⟩ := hof; simp [jphase] at h1
        | worker w hw hf' =>
          obtain rfl := List.mem_singleton.1 hf
          obtain ⟨r, φ, h1⟩ := hof
          rcases hf' with rfl | rfl | rfl | rfl <;> simp [jphase] at h1
        | run hr hi => exact Inv.no_run hb hst
        | kill m hm hx hv => exact absurd hx (I.kx (I.active hp))
        | @job _ J1 r1 φ1 _ hj' hp' hx hr =>
          obtain ⟨J2, r2, i, w, rfl, hi, hw, hd⟩ := I.blocked_job hb hst hj'
          have hj1 : J2 = J1 ∧ r2 = r1 := by
            simp only [jphase, Option.some.injEq, Prod.mk.injEq] at hj'; exact ⟨hj'.1, hj'.2.1⟩
          obtain ⟨rfl, rfl⟩ := hj1
          have hJJ : J2 = J := by
            rcases List.mem_cons.1 hf with rfl | hf
            · obtain ⟨r', φ', h1⟩ := hof
              simp only [jphase, Option.some.injEq, Prod.mk.injEq] at h1; exact h1.1
            · have := hr.ofJob_lt hf hof
              rw [hup J2 this] at hp'; cases hp'
          subst hJJ
          have hφ : φ1 = .coll i := by
            simp only [jphase, Option.some.injEq, Prod.mk.injEq] at hj'; exact hj'.2.2.symm
          subst hφ
          simp only [FX] at hx
          obtain ⟨w', hw', ho⟩ := (I.job J2 t r2 _ hp').out i (by simp only [Phase.out]; omega)
          rw [hw] at hw'
          obtain rfl := Option.some.inj hw'
          obtain ⟨_, _, hsl, ha, hstage⟩ := I.asg_phase ho hp'
          have hbw := hb (.wk w) 0
          rcases hstage with h1 | h1 | h1 | h1 | h1
          · simp only [step, h1.2.2.1, stepWorker, h1.1, ha] at hbw
            simp at hbw
          · simp only [step, h1.2.2.1, stepWorker, ha, if_true, hsl] at hbw
            split at hbw
            · cases hbw
            · split at hbw <;> cases hbw
          · have h3 := I.stk (.wk w)
            cases hst' : s.stack (.wk w) with
            | nil => rw [hst'] at h1; simp at h1
            | cons f3 st3 =>
              have h4 := h1.2.2.1
              rw [hst'] at h3 h4
              cases h3 with
              | app m hm => cases hm
              | worker => simp at h4
              | run => exact Inv.no_run hb hst'
              | kill m hm => cases hm
              | @job _ J3 r3 φ3 _ hj3 hp3 hx3 hr3 =>
                have := (hr3.asg_lt (J' := 0) ho).1
                rw [hup J3 this] at hp3; cases hp3
          · simp only [step, h1.2.2.1, stepWorker, ha] at hbw
            simp at hbw
          · omega

/-- if nothing can move, the application is finished -/
theorem Inv.stuck (I : Inv s g) (hb : ∀ t fresh, step t fresh s = .blocked) :
    (∀ m, m < s.nm → s.stack (.master m) = [.app .done]) ∧ (∀ J, g.ph J = none) ∧ s.cleaning = false := by
  have hl := I.lock_none hb
  have hph : ∀ J, g.ph J = none := fun J => I.no_jobs hb s.nextJob J (by omega)
  have hc : s.cleaning = false := by
    cases h : s.cleaning with
    | false => rfl
    | true => obtain ⟨-, -, k, _, _, h1, _⟩ := I.cln h; rw [hl] at h1; cases h1
  refine ⟨?_, hph, hc⟩
  have happ : ∀ m, m < s.nm → ∃ p, s.stack (.master m) = [.app p] := by
    intro m hm
    have h := I.stk (.master m)
    cases hst : s.stack (.master m) with
    | nil => exact absurd hst (I.mst' m hm)
    | cons f st =>
      rw [hst] at h
      cases h with
      | app => exact ⟨_, rfl⟩
      | worker w hw => cases hw
      | run => exact (Inv.no_run hb hst).elim
      | job hj hp => rw [hph] at hp; cases hp
      | kill m hm hx => exact absurd hx (I.kx hc)
  intro m hm
  obtain ⟨p, hp⟩ := happ m hm
  have h1 := hb (.master m) 0
  cases p with
  | done => exact hp
  | loop lm n body rest =>
    simp only [step, hp, stepCode, hc] at h1
    exact absurd h1 spawn_ne_blocked
  | cleanup rest =>
    have hq : s.quiet = true := by
      simp only [Sys.quiet, List.all_eq_true, List.mem_range]
      intro m' hm'
      obtain ⟨p', hp'⟩ := happ m' hm'
      rw [hp']
    simp [step, hp, stepCode, hl, hq] at h1

/-! ## Termination -/

/-- an upper bound for the number of steps a program causes -/
def Prog.cost : Prog → ℕ
  | .done => 0
  | .loop lm n body rest => 2 + (((spawnLoop lm n).getD []).map fun d => (body d).cost + 30).sum + rest.cost
  | .cleanup rest => 4 + rest.cost

/-- cost of the blocks from `i` on -/
def jw (r : Job) (i : ℕ) : ℕ := ((r.blocks.drop i).map fun d => (r.body d).cost + 30).sum

/-- cost of block `i` -/
def bw (r : Job) (i : ℕ) : ℕ := match r.blocks[i]? with
  | some d => (r.body d).cost
  | none => 0

theorem jw_eq {r : Job} {i : ℕ} (h : i < r.blocks.length) : jw r i = bw r i + 30 + jw r (i + 1) := by
  unfold jw bw
  rw [List.drop_eq_getElem_cons h, List.map_cons, List.sum_cons, List.getElem?_eq_getElem h]

def fw : Frame → ℕ
  | .app p => p.cost
  | .wait => 0
  | .fetch => 0
  | .signal => 1
  | .exit => 1
  | .run _ _ p => p.cost + 1
  | .dist _ r i => jw r i + 5 * i + 1
  | .deqRead _ r i => jw r (i + 1) + 5 * i + 6 + bw r i + 24
  | .deqPop _ r i _ => jw r (i + 1) + 5 * i + 6 + bw r i + 23
  | .deqUnlock _ r i _ => jw r (i + 1) + 5 * i + 6 + bw r i + 22
  | .create _ r i => jw r (i + 1) + 5 * i + 6 + bw r i + 21
  | .assign _ r i _ => jw r (i + 1) + 5 * i + 6 + bw r i + 9
  | .upReady _ r i => jw r (i + 1) + 5 * i + 6 + bw r i + 8
  | .coll _ r i => 5 * (r.blocks.length - 1 - i) + 1
  | .enqLock _ r i _ => 5 * (r.blocks.length - 1 - (i + 1)) + 5
  | .enqLink _ r i _ => 5 * (r.blocks.length - 1 - (i + 1)) + 4
  | .enqSet _ r i _ => 5 * (r.blocks.length - 1 - (i + 1)) + 3
  | .enqUnlock _ r i => 5 * (r.blocks.length - 1 - (i + 1)) + 2
  | .killLoop => 2
  | .killUp _ => 11
  | .killDown _ => 4
  | .killFree _ => 3

def sw (st : List Frame) : ℕ := (st.map fw).sum

/-- cost of the block a worker was told to run -/
def slotW (s : Sys) (w : ℕ) : ℕ := match s.slot w with
  | some (.work J i) => match s.jobs J with
    | some r => bw r i
    | none => 0
  | _ => 0

def fetching : List Frame → Bool
  | [.fetch] => true
  | _ => false

/-- cost of a worker object -/
def V (s : Sys) (w : ℕ) : ℕ := if s.alive w then
    (if s.slot w = some .kill then 0 else 10) + s.ready w * (slotW s w + 6) + if fetching (s.stack (.wk w)) then slotW s w + 4 else 0
  else 0

/-- the total remaining cost -/
def HasM (s : Sys) (n : ℕ) : Prop := ∃ (T : Finset Tid) (S : Finset ℕ), (∀ t, t ∉ T → s.stack t = []) ∧ (∀ w, w ∉ S → s.alive w = false) ∧
  n = ∑ t ∈ T, sw (s.stack t) + ∑ w ∈ S, V s w

theorem HasM.dec {n : ℕ} (h : HasM s n) {w0 : ℕ} (hst : ∀ t', t' ≠ t → s'.stack t' = s.stack t' ∨ t' = .wk w0 ∧ sw (s'.stack t') = 0 ∧ s.stack t' = [])
    (ha : ∀ w, w ≠ w0 → s'.alive w = s.alive w) (hV : ∀ w, w ≠ w0 → V s' w ≤ V s w)
    (hlt : sw (s'.stack t) + V s' w0 < sw (s.stack t) + V s w0) : ∃ n' < n, HasM s' n' := by
  obtain ⟨T, S, h1, h2, rfl⟩ := h
  refine ⟨_, ?_, insert (.wk w0) (insert t T), insert w0 S, ?_, ?_, rfl⟩
  · have e1 : ∑ t' ∈ T, sw (s.stack t') = ∑ t' ∈ insert (.wk w0) (insert t T), sw (s.stack t') := by
      apply Finset.sum_subset (by intro x hx; simp [hx])
      intro x _ hx; rw [h1 x hx]; rfl
    have e2 : ∑ w ∈ S, V s w = ∑ w ∈ insert w0 S, V s w := by
      apply Finset.sum_subset (by intro x hx; simp [hx])
      intro x _ hx; simp [V, h2 x hx]
    rw [e1, e2]
    have ht : t ∈ insert (.wk w0) (insert t T) := by simp
    have hw : w0 ∈ insert w0 S := by simp
    rw [← Finset.add_sum_erase _ _ ht, ← Finset.add_sum_erase _ _ hw, ← Finset.add_sum_erase _ _ ht, ← Finset.add_sum_erase _ _ hw]
    have e3 : ∑ x ∈ (insert (.wk w0) (insert t T)).erase t, sw (s'.stack x) = ∑ x ∈ (insert (.wk w0) (insert t T)).erase t, sw (s.stack x) := by
      apply Finset.sum_congr rfl
      intro x hx
      rcases hst x (Finset.ne_of_mem_erase hx) with h | ⟨_, h, h'⟩
      · rw [h]
      · rw [h, h']; rfl
    have e4 : ∑ x ∈ (insert w0 S).erase w0, V s' x ≤ ∑ x ∈ (insert w0 S).erase w0, V s x := by
      apply Finset.sum_le_sum
      intro x hx
      exact hV x (Finset.ne_of_mem_erase hx)
    omega
  · intro t' ht'
    simp only [Finset.mem_insert, not_or] at ht'
    rcases hst t' ht'.2.1 with h | ⟨h, _⟩
    · rw [h]; exact h1 t' ht'.2.2
    · exact absurd h ht'.1
  · intro w hw
    simp only [Finset.mem_insert, not_or] at hw
    rw [ha w hw.1]; exact h2 w hw.2

theorem V_le {w : ℕ} (ha : s'.alive w = s.alive w) (hs : s'.slot w = s.slot w) (hr : s'.ready w = s.ready w) (hw : slotW s' w ≤ slotW s w ∨ s.ready w = 0 ∧ fetching (s.stack (.wk w)) = false)
    (hf : s'.stack (.wk w) = s.stack (.wk w) ∨ fetching (s'.stack (.wk w)) = false) : V s' w ≤ V s w := by
  simp only [V, ha, hs, hr]
  split
  · have h1 : s.ready w * (slotW s' w + 6) ≤ s.ready w * (slotW s w + 6) := by
      rcases hw with h | h
      · exact Nat.mul_le_mul_left _ (by omega)
      · rw [h.1]; simp
    have h2 : (if fetching (s'.stack (.wk w)) = true then slotW s' w + 4 else 0) ≤ if fetching (s.stack (.wk w)) = true then slotW s w + 4 else 0 := by
      rcases hf with h | h
      · rw [h]
        rcases hw with h | h
        · split <;> omega
        · rw [h.2]; simp
      · rw [h]; simp
    omega
  · exact Nat.le_refl _

end FFTW.Pool
