import Verif.Model.Print
/-!
# `kernel/scan.c` — the scanner

A scanner is the finite sequence of values its `getchr` callback will return before it returns `EOF` for ever,
plus the pushed-back character `ungotc`.  The values are arbitrary `int`s; they may even contain `EOF` (a `char`
0xFF read where `char` is signed).
-/

namespace FFTW.Scan
open FFTW.Print (chr)

/-- `EOF` -/
abbrev EOF : Int := -1

/-- `scanner`, kernel/ifftw.h (fields used here) -/
structure Scanner where
  /-- values still to be returned by `getchr` -/
  rest : List Int
  ungotc : Int

/-- `mkscanner`, kernel/scan.c:191-199 -/
def mkScanner (input : List Int) : Scanner := { rest := input, ungotc := EOF }

/-- `mygetc`, kernel/scan.c:48-56 -/
def getc (sc : Scanner) : Int × Scanner :=
  if sc.ungotc ≠ EOF then (sc.ungotc, { sc with ungotc := EOF })
  else match sc.rest with
    | [] => (EOF, sc)
    | c :: cs => (c, { sc with rest := cs })

/-- `myungetc`, kernel/scan.c:60-63 -/
def ungetc (sc : Scanner) (c : Int) : Scanner := { sc with ungotc := c }

/-- `isspace` kernel/scan.c:39 -/
def isspace (x : Int) : Bool := decide (0 ≤ x ∧ x ≤ 32)
/-- `isdigit`, kernel/scan.c:41 -/
def isdigit (x : Int) : Bool := decide (48 ≤ x ∧ x ≤ 57)
/-- `isupper`, kernel/scan.c:43 -/
def isupper (x : Int) : Bool := decide (65 ≤ x ∧ x ≤ 90)
/-- `islower`, kernel/scan.c:45 -/
def islower (x : Int) : Bool := decide (97 ≤ x ∧ x ≤ 122)

/-- number of characters still available (termination measure) -/
def Scanner.size (sc : Scanner) : Nat := sc.rest.length + (if sc.ungotc ≠ EOF then 1 else 0)

theorem getc_size {sc : Scanner} (h : (getc sc).1 ≠ EOF) : (getc sc).2.size < sc.size := by
  unfold getc at *
  split
  · rename_i hu
    simp [Scanner.size, hu]
  · rename_i hu
    split
    · rename_i hr
      simp [hu, hr] at h
    · rename_i c cs hr
      have hu' : sc.ungotc = EOF := by simpa using hu
      simp [Scanner.size, hr, hu']

/-- `eat_blanks`, kernel/scan.c:67-73 -/
def eatBlanks (sc : Scanner) : Scanner :=
  let r := getc sc
  if h : isspace r.1 then eatBlanks r.2 else ungetc r.2 r.1
termination_by sc.size
decreasing_by
  apply getc_size
  intro h'
  rw [show r = getc sc from rfl, h'] at h
  exact absurd h (by decide)

/-- `mygets`, kernel/scan.c:75-86.  Returns the characters stored before the final NUL.  `s` counts the
characters stored so far. -/
def mygetsLoop (sc : Scanner) (s : Nat) (maxlen : Nat) : List Int × Scanner :=
  let r := getc sc
  let ch := r.1
  if h : ch ≠ EOF ∧ isspace ch = false ∧ ch ≠ chr ')' ∧ ch ≠ chr '(' ∧ s < maxlen then
    let t := mygetsLoop r.2 (s + 1) maxlen
    ((ch % 256) :: t.1, t.2)          -- (char)(ch & 0xFF)
  else ([], ungetc r.2 ch)
termination_by sc.size
decreasing_by exact getc_size h.1

/-- `mygets`, kernel/scan.c:75-86 -/
def mygets (sc : Scanner) (maxlen : Nat) : List Int × Scanner := mygetsLoop sc 0 maxlen

/-- `mygets` again, with the destination array explicit: a store outside `buf` is undefined (`none`).
kernel/scan.c:75-86 -/
def mygetsBufLoop (sc : Scanner) (buf : Print.CBuf) (s : Nat) (maxlen : Nat) : C (Print.CBuf × Scanner) :=
  let r := getc sc
  let ch := r.1
  if h : ch ≠ EOF ∧ isspace ch = false ∧ ch ≠ chr ')' ∧ ch ≠ chr '(' ∧ s < maxlen then
    match buf.store s (ch % 256) with         -- *s++ = (char)(ch & 0xFF)
    | none => none
    | some buf => mygetsBufLoop r.2 buf (s + 1) maxlen
  else
    match buf.store s 0 with                  -- *s = 0
    | none => none
    | some buf => some (buf, ungetc r.2 ch)
termination_by sc.size
decreasing_by exact getc_size h.1

/-- the digit value computed by the `if` chain of `getlong`, kernel/scan.c:99-106; `none` = `break` -/
def digitVal (ch : Int) : Option Int :=
  if isdigit ch then some (ch - 48)
  else if isupper ch then some (ch - (65 - 10))
  else if islower ch then some (ch - (97 - 10))
  else none

/-- the `for (count = 0; ; ++count)` loop of `getlong`, kernel/scan.c:98-109.  `long` is 64 bits; overflow of
`x * base + ch` is undefined.  Returns `(x, count, last ch, scanner)`. -/
def getlongLoop (base : Int) (sc : Scanner) (ch : Int) (x : Int) (count : Nat) : C (Int × Nat × Int × Scanner) :=
  match digitVal ch with
  | none => some (x, count, ch, sc)
  | some v => do
      let xb ← cmul x base
      let x' ← cadd xb v
      getlongLoop base (getc sc).2 (getc sc).1 x' (count + 1)
partial_fixpoint

/-- `getlong`, kernel/scan.c:88-114: returns `(value, *ret, scanner)` -/
def getlong (sc : Scanner) (base : Int) : C (Int × Bool × Scanner) := do
  let r := getc sc
  let (sign, ch, sc) :=
    if r.1 = chr '-' ∨ r.1 = chr '+' then
      let r' := getc r.2
      ((if r.1 = chr '-' then (-1 : Int) else 1), r'.1, r'.2)
    else (1, r.1, r.2)
  let (x, count, ch, sc) ← getlongLoop base sc ch 0 0
  let x ← cmul x sign
  return (x, decide (count > 0), ungetc sc ch)

/-- values stored by `vscan` through its pointer arguments, in order -/
inductive Res where
  | str (s : List Int)
  /-- `%d`/`%x`: `(int) getlong`, stored in an `int`/`unsigned` object -/
  | int (x : Int)
  | md5 (x : Nat)
  deriving DecidableEq

/-- conversion to `int` (two's complement truncation) -/
def toInt32 (x : Int) : Int := (x + 2 ^ 31) % 2 ^ 32 - 2 ^ 31

/-- `vscan`, kernel/scan.c:122-179.  `maxs` are the `int` arguments consumed by `%*s`.  Result: success flag,
values stored, scanner. `%s` without `*` has `fmt_len = 0`. -/
def vscan (sc : Scanner) : List Char → List Int → C (Bool × List Res × Scanner)
  | [], _ => return (true, [], sc)
  | '%' :: '*' :: 's' :: fmt, n :: maxs => do
    if n ≤ 0 then return (false, [], sc)
    else
      let r := mygets sc n.toNat
      let (ok, vs, sc) ← vscan r.2 fmt maxs
      return (ok, .str r.1 :: vs, sc)
  | '%' :: 's' :: fmt, maxs => do
    let r := mygets sc 0
    let (ok, vs, sc) ← vscan r.2 fmt maxs
    return (ok, .str r.1 :: vs, sc)
  | '%' :: 'd' :: fmt, maxs => do
    let (x, ret, sc) ← getlong sc 10
    if ret then
      let (ok, vs, sc) ← vscan sc fmt maxs
      return (ok, .int (toInt32 x) :: vs, sc)
    else return (false, [.int (toInt32 x)], sc)
  | '%' :: 'x' :: fmt, maxs => do
    let (x, ret, sc) ← getlong sc 16
    if ret then
      let (ok, vs, sc) ← vscan sc fmt maxs
      return (ok, .int (toInt32 x) :: vs, sc)
    else return (false, [.int (toInt32 x)], sc)
  | '%' :: 'M' :: fmt, maxs => do
    let (x, ret, sc) ← getlong sc 16
    let m := (x % 2 ^ 32).toNat                 -- 0xFFFFFFFF & getlong(..)
    if ret then
      let (ok, vs, sc) ← vscan sc fmt maxs
      return (ok, .md5 m :: vs, sc)
    else return (false, [.md5 m], sc)
  | '%' :: _, _ => none
  | c :: fmt, maxs => do
    let sc := if isspace (chr c) ∨ c = '(' ∨ c = ')' then eatBlanks sc else sc
    if isspace (chr c) then vscan sc fmt maxs
    else
      let r := getc sc
      if r.1 ≠ chr c then return (false, [], ungetc r.2 r.1)
      else vscan r.2 fmt maxs

end FFTW.Scan
