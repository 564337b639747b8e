import Mathlib.Data.Int.Basic

/-!
# kernel/rader.c: shared tables of roots of unity

An address is a number different from 0.  `int refcnt` is modelled by `ℤ` (it would overflow with 2^31 awake plans).
-/

namespace FFTW.RaderTl

/-- `k1`, `k2`, `k3` -/
abbrev Key := ℤ × ℤ × ℤ

/-- `rader_tl`, kernel/rader.c:29-34, without `cdr` -/
structure Entry where
  key : Key
  W : ℕ
  refcnt : ℤ

/-- `rader_tl_insert`, kernel/rader.c:36-41 -/
def insert (k : Key) (W : ℕ) (tl : List Entry) : List Entry := ⟨k, W, 1⟩ :: tl

/-- `rader_tl_find`, kernel/rader.c:43-52: the address found (or 0) and the list with the count updated -/
def find (k : Key) : List Entry → ℕ × List Entry
  | [] => (0, [])
  | t :: tl => if t.key = k then (t.W, { t with refcnt := t.refcnt + 1 } :: tl) else ((find k tl).1, t :: (find k tl).2)

/-- the list walk of `rader_tl_delete`, kernel/rader.c:59-66: the list and whether `W` was freed -/
def deleteWalk (W : ℕ) : List Entry → List Entry × Bool
  | [] => ([], false)
  | t :: tl =>
    if t.W = W then
      if t.refcnt - 1 ≤ 0 then (tl, true) else ({ t with refcnt := t.refcnt - 1 } :: tl, false)
    else (t :: (deleteWalk W tl).1, (deleteWalk W tl).2)

/-- `rader_tl_delete`, kernel/rader.c:54-68 -/
def delete (W : ℕ) (tl : List Entry) : List Entry × Bool := if W = 0 then (tl, false) else deleteWalk W tl

/-- process state: the list `omegas`, and for each awake plan its key and its `omega` pointer -/
structure St where
  tl : List Entry
  plans : List (Key × ℕ)

/-- `awake` of a sleeping plan (dft/rader.c:182-188 and 45-74; rdft/dht-rader.c likewise): `fresh` is what `MALLOC` would return -/
def awake (k : Key) (fresh : ℕ) (s : St) : St :=
  let r := find k s.tl
  if r.1 ≠ 0 then { tl := r.2, plans := (k, r.1) :: s.plans }
  else { tl := insert k fresh r.2, plans := (k, fresh) :: s.plans }

/-- `awake(SLEEPY)` of the `i`th awake plan (dft/rader.c:178-181, 76-79): the new state and the table freed, if any -/
def sleep (i : ℕ) (s : St) : St × Option ℕ :=
  match s.plans[i]? with
  | none => (s, none)
  | some (_, W) =>
    let r := delete W s.tl
    ({ tl := r.1, plans := s.plans.eraseIdx i }, if r.2 then some W else none)

end FFTW.RaderTl
