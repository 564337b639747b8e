import Mathlib.Data.Set.Insert
import Verif.Model.Htab

/-!
# Wisdom as an abstract set of facts (for C16)

A fact says: "for the problem with signature `s`, planned with lower/upper impatience `l`, `u` and time-limit class `tli`,
solver `slvndx` gave the plan" — or, when `slvndx` is the mark 0xFFF, "no plan was found".
-/

namespace FFTW.Planner

/-- a fact -/
structure Entry where
  s : MSig
  l : BitVec 20
  u : BitVec 20
  tli : BitVec 9
  slvndx : BitVec 12
  deriving DecidableEq

namespace WisdomSpec

/-- set inclusion of flag words -/
def Incl {w : ℕ} (x y : BitVec w) : Prop := ∀ i, i < w → x.getLsbD i = true → y.getLsbD i = true

/-- Does the fact `e` answer a question about signature `s` with flags `l`, `u`, `tli`?  A plan found under an impatience
range inside the requested one is good enough (its upper bound is not more impatient than allowed, its lower bound not more
patient than demanded); the news that there is no plan applies to anybody at least as impatient, also about time. -/
def Answers (e : Entry) (s : MSig) (l u : BitVec 20) (tli : BitVec 9) : Prop :=
  e.s = s ∧ if e.slvndx = 0xFFF then Incl e.l l ∧ e.tli.toNat ≤ tli.toNat else Incl e.u u ∧ Incl l e.l

/-- recording a fact drops exactly the facts it makes superfluous -/
def record (W : Set Entry) (e : Entry) : Set Entry := insert e {x ∈ W | ¬ Answers e x.s x.l x.u x.tli}

/-- a history of recordings, starting from nothing -/
def recordAll (es : List Entry) : Set Entry := es.foldl record ∅

open Classical in
/-- a fact read from a file is recorded unless the known facts (`W`: saved wisdom, `U`: temporary knowledge) answer the same
question already -/
noncomputable def learn (U W : Set Entry) (e : Entry) : Set Entry :=
  if ∃ x, (x ∈ W ∨ x ∈ U) ∧ Answers x e.s e.l e.u e.tli then W else record W e

/-- facts read one after the other -/
noncomputable def learnAll (U W : Set Entry) (es : List Entry) : Set Entry := es.foldl (learn U) W

end WisdomSpec
end FFTW.Planner
