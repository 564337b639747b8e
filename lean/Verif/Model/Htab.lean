import Verif.Model.Primes

/-!
# `kernel/planner.c` — the tables of solutions ("wisdom")

`unsigned` arithmetic on table sizes is unbounded here (tables have fewer than 2^31 slots).  Statistics counters are not
modelled.  `hashtab.hashsiz` is the length of the array.  Access outside the array, division by zero and
non-termination are `none`.
-/

namespace FFTW.Planner

/-- `md5sig`, kernel/ifftw.h:392 (four words below 2^32) -/
structure MSig where
  s0 : Nat
  s1 : Nat
  s2 : Nat
  s3 : Nat
  deriving DecidableEq

/-- `flags_t` without `slvndx`, kernel/ifftw.h:626-640 -/
structure FlagsT where
  l : BitVec 20
  u : BitVec 20
  tli : BitVec 9
  hi : BitVec 3
  deriving DecidableEq

/-- `solution`, kernel/planner.c:205-208 -/
structure Slot where
  s : MSig
  fl : FlagsT
  slvndx : BitVec 12
  deriving DecidableEq

/-- kernel/ifftw.h:669 -/ def BLESSING : BitVec 3 := 1
/-- kernel/ifftw.h:670 -/ def H_VALID : BitVec 3 := 2
/-- kernel/ifftw.h:671 -/ def H_LIVE : BitVec 3 := 4
/-- kernel/planner.c:37 -/ def INFEASIBLE_SLVNDX : BitVec 12 := 0xFFF

/-- `VALIDP`, kernel/planner.c:33 -/
def Slot.valid (x : Slot) : Bool := decide (x.fl.hi &&& H_VALID ≠ 0)
/-- `LIVEP`, kernel/planner.c:34 -/
def Slot.live (x : Slot) : Bool := decide (x.fl.hi &&& H_LIVE ≠ 0)
/-- `BLISS`, kernel/planner.c:36 -/
def bliss (f : FlagsT) : BitVec 3 := f.hi &&& BLESSING

/-- `LEQ`, kernel/planner.c:50 -/
def LEQ {w : Nat} (x y : BitVec w) : Bool := decide (x &&& y = x)

/-- `subsumes`, kernel/planner.c:53-62 -/
def subsumes (a : FlagsT) (slvndxA : BitVec 12) (b : FlagsT) : Bool :=
  if slvndxA ≠ INFEASIBLE_SLVNDX then LEQ a.u b.u && LEQ b.l a.l
  else LEQ a.l b.l && decide (a.tli ≤ b.tli)

/-- `addmod`, kernel/planner.c:64-75 -/
def addmod (a b p : Nat) : Nat := let c := a + b; if c ≥ p then c - p else c

/-- `hashtab`, kernel/ifftw.h:750-758 -/
structure HTab where
  sols : List Slot
  nelem : Nat

/-- `hashsiz` -/
def HTab.siz (t : HTab) : Nat := t.sols.length

/-- `h1`, kernel/planner.c:160-165 -/
def h1 (t : HTab) (s : MSig) : Option Nat := if t.siz = 0 then none else some (s.s0 % t.siz)
/-- `h2`, kernel/planner.c:168-173 -/
def h2 (t : HTab) (s : MSig) : Option Nat := if t.siz - 1 = 0 then none else some (1 + s.s1 % (t.siz - 1))

/-- the test inside the loop of `htab_lookup`, kernel/planner.c:229-234 -/
def betterp (s : MSig) (f : FlagsT) (l : Slot) (best : Option Slot) : Bool :=
  l.live && decide (s = l.s) && subsumes l.fl l.slvndx f &&
    (match best with
     | none => true
     | some b => LEQ l.fl.u b.fl.u)

/-- the loop of `htab_lookup`, kernel/planner.c:225-239 -/
def lookupLoop (t : HTab) (s : MSig) (f : FlagsT) (h d g : Nat) (best : Option Slot) : Option (Option Slot) :=
  match t.sols[g]? with
  | none => none
  | some l =>
    if l.valid then
      let best := if betterp s f l best then some l else best
      let g := addmod g d t.siz
      if g ≠ h then lookupLoop t s f h d g best else some best
    else some best
partial_fixpoint

/-- `htab_lookup`, kernel/planner.c:210-244 -/
def htabLookup (t : HTab) (s : MSig) (f : FlagsT) : Option (Option Slot) := do
  let h ← h1 t s
  let d ← h2 t s
  lookupLoop t s f h d h none

/-- `fill_slot`, kernel/planner.c:254-271.  The fields not listed keep their value. -/
def fillSlot (t : HTab) (s : MSig) (f : FlagsT) (slvndx : BitVec 12) (g : Nat) : Option HTab :=
  match t.sols[g]? with
  | none => none
  | some x => some { sols := t.sols.set g { s := s, fl := { l := f.l, u := f.u, tli := f.tli, hi := x.fl.hi ||| (H_VALID ||| H_LIVE) }, slvndx := slvndx }
                     nelem := t.nelem + 1 }

/-- `kill_slot`, kernel/planner.c:273-279 -/
def killSlot (t : HTab) (g : Nat) : Option HTab :=
  match t.sols[g]? with
  | none => none
  | some x => some { sols := t.sols.set g { x with fl := { x.fl with hi := H_VALID } }, nelem := t.nelem - 1 }

/-- the search loop of `hinsert0`, kernel/planner.c:290-295 -/
def freeLoop (t : HTab) (d g : Nat) : Option Nat :=
  match t.sols[g]? with
  | none => none
  | some l => if l.live then freeLoop t d (addmod g d t.siz) else some g
partial_fixpoint

/-- `hinsert0`, kernel/planner.c:281-298 -/
def hinsert0 (t : HTab) (s : MSig) (f : FlagsT) (slvndx : BitVec 12) : Option HTab := do
  let h ← h1 t s
  let d ← h2 t s
  let g ← freeLoop t d h
  fillSlot t s f slvndx g

/-- a fresh slot: only `hash_info` is initialised (kernel/planner.c:310-311), the rest is arbitrary; the model takes zeros,
and no modelled code reads the other fields of a slot that is not live -/
def emptySlot : Slot := { s := ⟨0, 0, 0, 0⟩, fl := ⟨0, 0, 0, 0⟩, slvndx := 0 }

/-- the copy loop of `rehash`, kernel/planner.c:319-323 -/
def rehashLoop : List Slot → HTab → Option HTab
  | [], t => some t
  | l :: rest, t =>
    if l.live then
      match hinsert0 t l.s l.fl l.slvndx with
      | none => none
      | some t => rehashLoop rest t
    else rehashLoop rest t

/-- `rehash`, kernel/planner.c:300-326 -/
def rehash (t : HTab) (nsiz : Nat) : Option HTab := do
  let n ← Primes.nextPrime (nsiz : Int)
  rehashLoop t.sols { sols := List.replicate n.toNat emptySlot, nelem := 0 }

/-- `minsz`, kernel/planner.c:328-331 -/
def minsz (nelem : Nat) : Nat := 1 + nelem + nelem / 8
/-- `nextsz`, kernel/planner.c:333-336 -/
def nextsz (nelem : Nat) : Nat := minsz (minsz nelem)

/-- `hgrow`, kernel/planner.c:338-343 -/
def hgrow (t : HTab) : Option HTab := if minsz t.nelem ≥ t.siz then rehash t (nextsz t.nelem) else some t

/-- the loop of `htab_insert`, kernel/planner.c:368-388; returns the table and `first` -/
def killLoop (s : MSig) (f : FlagsT) (slvndx : BitVec 12) (h d : Nat) (t : HTab) (g : Nat) (first : Option Nat) : Option (HTab × Option Nat) :=
  match t.sols[g]? with
  | none => none
  | some l =>
    if l.valid then
      let kill := l.live && decide (s = l.s) && subsumes f slvndx l.fl
      let first := if kill then (match first with | none => some g | some x => some x) else first
      match (if kill then killSlot t g else some t) with
      | none => none
      | some t =>
        let g := addmod g d t.siz
        if g ≠ h then killLoop s f slvndx h d t g first else some (t, first)
    else some (t, first)
partial_fixpoint

/-- `htab_insert`, kernel/planner.c:355-399 -/
def htabInsert (t : HTab) (s : MSig) (f : FlagsT) (slvndx : BitVec 12) : Option HTab := do
  let h ← h1 t s
  let d ← h2 t s
  let (t, first) ← killLoop s f slvndx h d t h none
  match first with
  | some g => fillSlot t s f slvndx g
  | none => do
    let t ← hgrow t
    hinsert0 t s f slvndx

/-- `mkhashtab`, kernel/planner.c:756-765 -/
def mkhashtab : Option HTab := hgrow { sols := [], nelem := 0 }

end FFTW.Planner
