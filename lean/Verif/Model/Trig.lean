import Mathlib.Analysis.SpecialFunctions.Trigonometric.Basic
/-!
# `kernel/trig.c` — twiddle-factor generation

`trigreal` is `ℝ` (exact).  `INT` arithmetic is unbounded (the code needs `4*n ≤ INT_MAX`).
The C library functions `cos`/`sin` are parameters `COS SIN`, so that theorems can say where they are used.
-/

namespace FFTW.Trig

/-- `by2pi(m, n)`, kernel/trig.c:48-50, with `K2PI` exactly `2π` -/
noncomputable def by2pi (m n : Int) : ℝ := (2 * Real.pi * (m : ℝ)) / (n : ℝ)

/-- `real_cexp`, kernel/trig.c:67-79: from the reduction of `m` to the first octant up to the results
`(out[0], out[1])`; here `n` is already multiplied by 4 and `0 ≤ m ≤ n`. -/
noncomputable def cexpTail (COS SIN : ℝ → ℝ) (m n quarter_n : Int) : ℝ × ℝ := Id.run do
  let mut octant : Nat := 0
  let mut m := m
  if m > n - m then
    m := n - m
    octant := octant ||| 4
  if m - quarter_n > 0 then
    m := m - quarter_n
    octant := octant ||| 2
  if m > quarter_n - m then
    m := quarter_n - m
    octant := octant ||| 1
  let theta := by2pi m n
  let mut c := COS theta
  let mut s := SIN theta
  if octant &&& 1 ≠ 0 then
    let t := c
    c := s
    s := t
  if octant &&& 2 ≠ 0 then
    let t := c
    c := -s
    s := t
  if octant &&& 4 ≠ 0 then
    s := -s
  return (c, s)

/-- `real_cexp(m, n, out)`, kernel/trig.c:57-80; returns `(out[0], out[1])` -/
noncomputable def realCexp (COS SIN : ℝ → ℝ) (m n : Int) : ℝ × ℝ := Id.run do
  let quarter_n := n
  let n := n + n
  let n := n + n
  let mut m := m + m
  m := m + m
  if m < 0 then m := m + n
  return cexpTail COS SIN m n quarter_n

/-- `choose_twshft`, kernel/trig.c:82-90 -/
def chooseTwshft (n : Nat) : Nat :=
  if n > 0 then chooseTwshft (n / 4) + 1 else 0

/-- the part of `triggen` used by the square-root table, kernel/ifftw.h:906-916 -/
structure SqrtnGen where
  n : Nat
  twshft : Nat
  twradix : Nat
  twmsk : Nat
  W0 : List ℝ
  W1 : List ℝ

/-- `mktriggen` for `AWAKE_SQRTN_TABLE`, kernel/trig.c:184-206; the two fill loops are lists -/
noncomputable def mkSqrtn (COS SIN : ℝ → ℝ) (n : Nat) : SqrtnGen :=
  let twshft := chooseTwshft n
  let twradix := 1 <<< twshft
  let twmsk := twradix - 1
  let n0 := twradix
  let n1 := (n + n0 - 1) / n0
  let pair := fun (z : ℝ × ℝ) => [z.1, z.2]
  { n := n, twshft := twshft, twradix := twradix, twmsk := twmsk
    W0 := (List.range n0).flatMap fun (i : Nat) => pair (realCexp COS SIN i n)
    W1 := (List.range n1).flatMap fun (i : Nat) => pair (realCexp COS SIN ((i * twradix : Nat) : Int) n) }

/-- the table product common to `cexpl_sqrtn_table` (kernel/trig.c:92-107) and `rotate_sqrtn_table`
(kernel/trig.c:112-122).  Reads outside the tables give `none`. -/
def cexplSqrtn (p : SqrtnGen) (m : Int) : Option (ℝ × ℝ) := do
  let m := (m + p.n * (if m < 0 then 1 else 0)).toNat
  let m0 := m &&& p.twmsk
  let m1 := m >>> p.twshft
  let wr0 ← p.W0[2 * m0]?
  let wi0 ← p.W0[2 * m0 + 1]?
  let wr1 ← p.W1[2 * m1]?
  let wi1 ← p.W1[2 * m1 + 1]?
  return (wr1 * wr0 - wi1 * wi0, wi1 * wr0 + wr1 * wi0)

/-- `rotate_sqrtn_table`, kernel/trig.c:110-132 with `FFT_SIGN == -1` (kernel/ifftw.h) -/
def rotateSqrtn (p : SqrtnGen) (m : Int) (xr xi : ℝ) : Option (ℝ × ℝ) := do
  let (wr, wi) ← cexplSqrtn p m
  return (xr * wr + xi * wi, xi * wr - xr * wi)

/-- `rotate_generic`, kernel/trig.c:161-167, `FFT_SIGN = -1`, over `cexpl_sincos` (134-137) -/
noncomputable def rotateGeneric (COS SIN : ℝ → ℝ) (n m : Int) (xr xi : ℝ) : ℝ × ℝ :=
  let w := realCexp COS SIN m n
  (xr * w.1 - xi * ((-1) * w.2), xi * w.1 + xr * ((-1) * w.2))

end FFTW.Trig
