import Verif.Model.Pool
import Verif.Spec.Pool
import Mathlib.Tactic.Common
import Mathlib.Order.Basic
import Mathlib.Order.Defs.LinearOrder
/-!
# Invariant of the thread pool
-/

namespace FFTW.Pool
open FFTW.Spawn

/-- progress of a call -/
inductive Phase
  | dist (k : ℕ)
  | self
  | coll (k : ℕ)

/-- is block `i` of `n` handed to a worker and not yet collected? -/
def Phase.out (n : ℕ) : Phase → ℕ → Prop
  | .dist k, i => i < k
  | .self, i => i + 1 < n
  | .coll k, i => k ≤ i ∧ i + 1 < n

/-- who is responsible for a worker object -/
inductive Own
  | dead
  | queue
  | held (t : Tid)
  | asg (J i : ℕ)
  | dying

structure Ghost where
  own : ℕ → Own
  ph : ℕ → Option (Tid × Job × Phase)
  l : List ℕ
  info : ℕ → Option (List SpawnData)

def jphase : Frame → Option (ℕ × Job × Phase)
  | .dist J r i | .deqRead J r i | .deqPop J r i _ | .deqUnlock J r i _ | .create J r i | .assign J r i _ | .upReady J r i => some (J, r, .dist i)
  | .coll J r i => some (J, r, .coll i)
  | .enqLock J r i _ | .enqLink J r i _ | .enqSet J r i _ | .enqUnlock J r i => some (J, r, .coll (i + 1))
  | _ => none

def FX (s : Sys) (g : Ghost) (t : Tid) : Frame → Prop
  | .dist _ r i => i + 1 ≤ r.blocks.length
  | .deqRead _ r i => i + 1 < r.blocks.length ∧ s.lock = some t
  | .deqPop _ r i q => i + 1 < r.blocks.length ∧ s.lock = some t ∧ q = s.head
  | .deqUnlock _ r i q => i + 1 < r.blocks.length ∧ s.lock = some t ∧ ∀ w, q = some w → g.own w = .held t
  | .create _ r i => i + 1 < r.blocks.length
  | .assign _ r i w => i + 1 < r.blocks.length ∧ g.own w = .held t
  | .upReady J r i => i + 1 < r.blocks.length ∧ ∃ w, s.wq J i = some w ∧ g.own w = .held t ∧ s.slot w = some (.work J i)
  | .coll _ r i => i + 1 ≤ r.blocks.length
  | .enqLock _ r i w => i + 1 < r.blocks.length ∧ g.own w = .held t
  | .enqLink _ r i w => i + 1 < r.blocks.length ∧ g.own w = .held t ∧ s.lock = some t
  | .enqSet _ r i w => i + 1 < r.blocks.length ∧ g.own w = .held t ∧ s.lock = some t ∧ s.cdr w = s.head
  | .enqUnlock _ r i => i + 1 < r.blocks.length ∧ s.lock = some t
  | _ => False

/-- the worker a frame holds -/
def Holds (s : Sys) : Frame → ℕ → Prop
  | .deqUnlock _ _ _ q, w => q = some w
  | .assign _ _ _ w', w => w' = w
  | .upReady J _ i, w => s.wq J i = some w
  | .enqLock _ _ _ w', w => w' = w
  | .enqLink _ _ _ w', w => w' = w
  | .enqSet _ _ _ w', w => w' = w
  | _, _ => False

/-- frames inside a critical section -/
def crit : Frame → Prop
  | .deqRead _ _ _ | .deqPop _ _ _ _ | .deqUnlock _ _ _ _ | .enqLink _ _ _ _ | .enqSet _ _ _ _ | .enqUnlock _ _ _ => True
  | .killLoop | .killUp _ | .killDown _ | .killFree _ => True
  | _ => False

def KX (s : Sys) (g : Ghost) (t : Tid) (f : Frame) : Prop := s.lock = some t ∧ s.cleaning = true ∧ match f with
  | .killLoop => s.term = 0 ∧ ∀ w, g.own w ≠ .dying
  | .killUp w => s.term = 0 ∧ g.own w = .dying ∧ s.ready w = 0 ∧ s.stack (.wk w) = [.wait]
  | .killDown w => g.own w = .dying ∧
      (s.term = 0 ∧ (s.ready w = 1 ∧ s.stack (.wk w) = [.wait] ∨ s.ready w = 0 ∧ s.stack (.wk w) = [.fetch] ∨ s.ready w = 0 ∧ s.stack (.wk w) = [.exit]) ∨
        s.term = 1 ∧ s.stack (.wk w) = [])
  | .killFree w => s.term = 0 ∧ g.own w = .dying ∧ s.stack (.wk w) = []
  | _ => False

mutual
/-- the stacks call `J` of thread `t` may return into -/
inductive Ret (g : Ghost) (t : Tid) : ℕ → List Frame → Prop
  | app {J : ℕ} {p : Prog} (m : ℕ) : t = .master m → p.Valid → Ret g t J [.app p]
  | run {J J' i : ℕ} {p : Prog} {st : List Frame} : J' < J → p.Inner → RunOK g t J' i st → Ret g t J (.run J' i p :: st)
/-- the stacks below `proc` -/
inductive RunOK (g : Ghost) (t : Tid) : ℕ → ℕ → List Frame → Prop
  | worker {J i : ℕ} (w : ℕ) : t = .wk w → g.own w = .asg J i → RunOK g t J i [.signal]
  | self {J i : ℕ} {st : List Frame} (r : Job) : g.ph J = some (t, r, .self) → i + 1 = r.blocks.length → Ret g t J st → RunOK g t J i (.coll J r 0 :: st)
end

inductive SOK (s : Sys) (g : Ghost) (t : Tid) : List Frame → Prop
  | nil : SOK s g t []
  | app {p : Prog} (m : ℕ) : t = .master m → p.Valid → SOK s g t [.app p]
  | worker {f : Frame} (w : ℕ) : t = .wk w → (f = .wait ∨ f = .fetch ∨ f = .signal ∨ f = .exit) → SOK s g t [f]
  | run {J i : ℕ} {p : Prog} {st : List Frame} : RunOK g t J i st → p.Inner → SOK s g t (.run J i p :: st)
  | job {f : Frame} {J : ℕ} {r : Job} {φ : Phase} {st : List Frame} : jphase f = some (J, r, φ) → g.ph J = some (t, r, φ) → FX s g t f → Ret g t J st →
      SOK s g t (f :: st)
  | kill {f : Frame} {p : Prog} (m : ℕ) : t = .master m → KX s g t f → p.Valid → SOK s g t (f :: [.app p])

def isStart (J i : ℕ) : Event → Bool
  | .start J' i' _ => J' == J && i' == i
  | _ => false

def ns (l : List Event) (J i : ℕ) : ℕ := l.countP (isStart J i)
def nf (l : List Event) (J i : ℕ) : ℕ := l.count (.finish J i)

/-- the state of a worker with an assigned block -/
def Stage (s : Sys) (w J i : ℕ) : Prop :=
  (s.ready w = 1 ∧ s.done w = 0 ∧ s.stack (.wk w) = [.wait] ∧ ns s.log J i = 0 ∧ nf s.log J i = 0) ∨
  (s.ready w = 0 ∧ s.done w = 0 ∧ s.stack (.wk w) = [.fetch] ∧ ns s.log J i = 0 ∧ nf s.log J i = 0) ∨
  (s.ready w = 0 ∧ s.done w = 0 ∧ 2 ≤ (s.stack (.wk w)).length ∧ ns s.log J i = 1 ∧ nf s.log J i = 0) ∨
  (s.ready w = 0 ∧ s.done w = 0 ∧ s.stack (.wk w) = [.signal] ∧ ns s.log J i = 1 ∧ nf s.log J i = 1) ∨
  (s.ready w = 0 ∧ s.done w = 1 ∧ s.stack (.wk w) = [.wait] ∧ ns s.log J i = 1 ∧ nf s.log J i = 1)

def WInv (s : Sys) (g : Ghost) (w : ℕ) : Prop := match g.own w with
  | .dead => s.alive w = false ∧ s.stack (.wk w) = []
  | .queue => s.alive w = true ∧ s.ready w = 0 ∧ s.done w = 0 ∧ s.stack (.wk w) = [.wait]
  | .held t => s.alive w = true ∧ s.ready w = 0 ∧ s.done w = 0 ∧ s.stack (.wk w) = [.wait] ∧ ∃ f st, s.stack t = f :: st ∧ Holds s f w
  | .asg J i => s.alive w = true ∧ s.wq J i = some w ∧ s.slot w = some (.work J i) ∧
      (∃ t r φ, g.ph J = some (t, r, φ) ∧ φ.out r.blocks.length i) ∧ Stage s w J i
  | .dying => s.alive w = true ∧ s.slot w = some .kill ∧ s.done w = 0 ∧
      ∃ t f st, s.lock = some t ∧ s.stack t = f :: st ∧ (f = .killUp w ∨ f = .killDown w ∨ f = .killFree w)

/-- does the frame belong to call `J`? -/
def ofJob (J : ℕ) (f : Frame) : Prop := ∃ r φ, jphase f = some (J, r, φ)

/-- what the history says about the `n` blocks of call `J` that are not assigned to workers -/
def Cnt (l : List Event) (J n : ℕ) : Phase → Prop
  | .dist k => ∀ i, k ≤ i → ns l J i = 0 ∧ nf l J i = 0
  | .self => (∀ i, i + 1 = n → ns l J i = 1 ∧ nf l J i = 0) ∧ ∀ i, n ≤ i → ns l J i = 0 ∧ nf l J i = 0
  | .coll k => (∀ i, i < k ∨ i + 1 = n → i < n → ns l J i = 1 ∧ nf l J i = 1) ∧ ∀ i, n ≤ i → ns l J i = 0 ∧ nf l J i = 0

structure JInv (s : Sys) (g : Ghost) (J : ℕ) (t : Tid) (r : Job) (φ : Phase) : Prop where
  job : s.jobs J = some r
  ok : ∀ d ∈ r.blocks, (r.body d).Inner
  ne : r.blocks ≠ []
  info : g.info J = some r.blocks
  frm : ∃ f ∈ s.stack t, ofJob J f
  out : ∀ i, φ.out r.blocks.length i → ∃ w, s.wq J i = some w ∧ g.own w = .asg J i
  cnt : Cnt s.log J r.blocks.length φ

/-- every block of `ds` has run exactly once, and nothing else -/
def AllRun (l : List Event) (J : ℕ) (ds : List SpawnData) : Prop :=
  ∀ i, (i < ds.length → ns l J i = 1 ∧ nf l J i = 1) ∧ (ds.length ≤ i → ns l J i = 0 ∧ nf l J i = 0)

structure LInv (s : Sys) (g : Ghost) : Prop where
  ended : ∀ J ds, g.ph J = none → g.info J = some ds → AllRun s.log J ds
  zero : ∀ J i, g.info J = none → ns s.log J i = 0 ∧ nf s.log J i = 0
  blk : ∀ J i d, Event.start J i d ∈ s.log → ∃ ds, g.info J = some ds ∧ ds[i]? = some d
  ent : ∀ J lm n, Event.enter J lm n ∈ s.log → g.info J = spawnLoop lm n ∧ g.info J ≠ none
  ent' : ∀ J ds, g.info J = some ds → ∃ lm n, Event.enter J lm n ∈ s.log
  ret : ∀ J l, (Event.ret J :: l) <:+ s.log → ∃ ds, g.info J = some ds ∧ AllRun l J ds ∧ ∃ lm n, Event.enter J lm n ∈ l
  fin : ∀ J i l, (Event.finish J i :: l) <:+ s.log → ns l J i = 1
  evs : ∀ J, g.info J = none → Event.ret J ∉ s.log

/-- the linked list of idle workers -/
def IsList (cdr : ℕ → Option ℕ) : Option ℕ → List ℕ → Prop
  | h, [] => h = none
  | h, w :: l => h = some w ∧ IsList cdr (cdr w) l

structure Inv (s : Sys) (g : Ghost) : Prop where
  stk : ∀ t, SOK s g t (s.stack t)
  wrk : ∀ w, WInv s g w
  job : ∀ J t r φ, g.ph J = some (t, r, φ) → JInv s g J t r φ
  noj : ∀ J, g.ph J = none → s.jobs J = none
  lst : IsList s.cdr s.head g.l
  nod : g.l.Nodup
  mem : ∀ w, w ∈ g.l ↔ g.own w = .queue
  lck : ∀ t, s.lock = some t → ∃ f st, s.stack t = f :: st ∧ crit f
  cln : s.cleaning = true → (∀ J, g.ph J = none) ∧ (∀ w, g.own w = .dead ∨ g.own w = .queue ∨ g.own w = .dying) ∧
    ∃ t f st, s.lock = some t ∧ s.stack t = f :: st ∧ KX s g t f
  trm : s.cleaning = false → s.term = 0
  nxt : ∀ J, s.nextJob ≤ J → g.ph J = none ∧ g.info J = none
  fin : ∃ B, ∀ w, B ≤ w → s.alive w = false
  mst : ∀ m, s.nm ≤ m → s.stack (.master m) = []
  mst' : ∀ m, m < s.nm → s.stack (.master m) ≠ []
  log : LInv s g


/-! ## Stacks do not depend on what other threads do -/

mutual
theorem Ret.congr {g g' : Ghost} {t : Tid} {J : ℕ} {st : List Frame} (h : Ret g t J st)
    (hph : ∀ J', J' < J → ∀ r φ, g.ph J' = some (t, r, φ) → g'.ph J' = g.ph J')
    (how : ∀ w J i, t = .wk w → g.own w = .asg J i → g'.own w = g.own w) : Ret g' t J st := by
  cases h with
  | app m hm hv => exact .app m hm hv
  | run hl hi hr => exact .run hl hi (hr.congr (fun J' hJ => hph J' (by omega)) how)
theorem RunOK.congr {g g' : Ghost} {t : Tid} {J i : ℕ} {st : List Frame} (h : RunOK g t J i st)
    (hph : ∀ J', J' ≤ J → ∀ r φ, g.ph J' = some (t, r, φ) → g'.ph J' = g.ph J')
    (how : ∀ w J i, t = .wk w → g.own w = .asg J i → g'.own w = g.own w) : RunOK g' t J i st := by
  cases h with
  | worker w hw ho => exact .worker w hw (by rw [how w _ _ hw ho, ho])
  | self r hp hi hr => exact .self r (by rw [hph _ (Nat.le_refl _) _ _ hp, hp]) hi (hr.congr (fun J' hJ => hph J' (by omega)) how)
end

theorem Ret.mono {g : Ghost} {t : Tid} {J J' : ℕ} {st : List Frame} (h : Ret g t J st) (hJ : J ≤ J') : Ret g t J' st := by
  cases h with
  | app m hm hv => exact .app m hm hv
  | run hl hi hr => exact .run (by omega) hi hr

theorem SOK.congr {s s' : Sys} {g g' : Ghost} {t : Tid} {st : List Frame} (h : SOK s g t st)
    (hph : ∀ J r φ, g.ph J = some (t, r, φ) → g'.ph J = g.ph J)
    (how : 2 ≤ st.length → ∀ w J i, t = .wk w → g.own w = .asg J i → g'.own w = g.own w)
    (hhd : ∀ w, g.own w = .held t → g'.own w = .held t ∧ s'.slot w = s.slot w ∧ s'.cdr w = s.cdr w)
    (hwq : ∀ J r φ, g.ph J = some (t, r, φ) → s'.wq J = s.wq J)
    (hlk : s.lock = some t → s'.lock = some t ∧ s'.head = s.head)
    (hk : ∀ f, KX s g t f → KX s' g' t f) : SOK s' g' t st := by
  cases h with
  | nil => exact .nil
  | app m hm hv => exact .app m hm hv
  | worker w hw hf => exact .worker w hw hf
  | run hr hi => exact .run (hr.congr (fun J' _ r φ => hph J' r φ) (how (by cases hr <;> simp))) hi
  | @job f J r φ st hj hp hx hr =>
    refine .job hj (by rw [hph _ _ _ hp, hp]) ?_ (hr.congr (fun J' _ r φ => hph J' r φ) (how (by cases hr <;> simp)))
    have hw := hwq _ _ _ hp
    cases f <;> simp only [FX, jphase] at hx hj ⊢ <;> grind
  | kill m hm hx hv => exact .kill m hm (hk _ hx) hv

end FFTW.Pool
