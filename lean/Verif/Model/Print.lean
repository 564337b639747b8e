import Verif.Model.CInt
/-!
# `kernel/print.c` — the printer

A printer is modelled by the sequence of characters handed to its `putchr` callback; the callbacks themselves
(string, counting and buffered-file printers of `api/mkprinter-str.c`, `api/mkprinter-file.c`) are modelled at
the end.  Characters are `Int` codes (C `char` promoted to `int`), because that is what the scanner reads.
-/

namespace FFTW.Print

/-- code of a character constant -/
abbrev chr (c : Char) : Int := (c.toNat : Int)

/-- `digits`, kernel/print.c:45 -/
def digits : List Int := ['0','1','2','3','4','5','6','7','8','9','a','b','c','d','e','f'].map chr

/-- `do { *f++ = digits[i % base]; i /= base; } while (i);` kernel/print.c:57-60, 72-75.
`buf` is the part of `char buf[BSZ]` (BSZ = 64, line 27) already written, in order; writing beyond it,
reading outside `digits`, or `base = 0` is undefined behaviour. -/
def digitLoop (base : Nat) (i : Nat) (buf : List Int) : C (List Int) := do
  if base = 0 then none
  else
    let d ← digits[i % base]?
    if buf.length < 64 then
      let buf := buf ++ [d]
      let i := i / base
      if i ≠ 0 then digitLoop base i buf else return buf
    else none
partial_fixpoint

/-- `putint`, kernel/print.c:47-65: returns the characters emitted -/
def putint (i : Int) : C (List Int) := do
  if i < 0 then
    let i' ← csub 0 i
    let buf ← digitLoop 10 i'.toNat []
    return chr '-' :: buf.reverse
  else
    let buf ← digitLoop 10 i.toNat []
    return buf.reverse

/-- `putulong`, kernel/print.c:67-85 -/
def putulong (i : Nat) (base : Nat) (width : Int) : C (List Int) := do
  let buf ← digitLoop base i []
  return List.replicate (width - buf.length).toNat (chr '0') ++ buf.reverse

/-- arguments of the variadic `print` that the wisdom code uses -/
inductive Arg where
  /-- `md5uint` -/
  | md5 (x : Nat)
  /-- `char *` -/
  | str (s : List Int)
  /-- `int` -/
  | int (x : Int)
  /-- `INT` -/
  | INT (x : Int)
  /-- `unsigned` -/
  | uns (x : Nat)

/-- `vprint`, kernel/print.c:87-215, for the conversions `%M %s %d %D %u %x %c` and literal text.
The conversions used only for printing plans (`%v %o %( %) %p %P %T`) are not modelled (`none`). -/
def vprint : List Char → List Arg → C (List Int)
  | [], _ => return []
  | '%' :: 'M' :: fmt, .md5 x :: ap => do
    let a ← putulong (x % 2 ^ 32) 16 8      -- 0xffffffffUL & x
    let r ← vprint fmt ap
    return a ++ r
  | '%' :: 's' :: fmt, .str s :: ap => do
    let r ← vprint fmt ap
    return s ++ r
  | '%' :: 'c' :: fmt, .int x :: ap => do
    let r ← vprint fmt ap
    return x :: r
  | '%' :: 'd' :: fmt, .int x :: ap => do
    let a ← putint x
    let r ← vprint fmt ap
    return a ++ r
  | '%' :: 'D' :: fmt, .INT x :: ap => do
    let a ← putint x
    let r ← vprint fmt ap
    return a ++ r
  | '%' :: 'u' :: fmt, .uns x :: ap => do
    let a ← putulong x 10 0
    let r ← vprint fmt ap
    return a ++ r
  | '%' :: 'x' :: fmt, .uns x :: ap => do
    let a ← putulong x 16 0
    let r ← vprint fmt ap
    return a ++ r
  | '%' :: _, _ => none
  | c :: fmt, ap => do
    let r ← vprint fmt ap
    return chr c :: r

/-! ### printer back ends -/

/-- counting printer, api/mkprinter-str.c:28-41: `cnt` after the characters `cs` -/
def cntPrinter (cs : List Int) : Nat := cs.foldl (fun cnt _ => cnt + 1) 0

/-- a malloc'ed `char` array: writes outside the block are undefined; `none` entries are uninitialised -/
abbrev CBuf := List (Option Int)

/-- `buf[i] = c` -/
def CBuf.store (b : CBuf) (i : Nat) (c : Int) : C CBuf :=
  if i < b.length then some (b.set i (some c)) else none

/-- `putchr_str`, api/mkprinter-str.c:48-53; state = buffer and `p->s` as an index -/
def putchrStr (st : CBuf × Nat) (c : Int) : C (CBuf × Nat) := do
  let b ← st.1.store st.2 c
  let b ← b.store (st.2 + 1) 0
  return (b, st.2 + 1)

/-- `mkprinter_str`, api/mkprinter-str.c:55-61 -/
def mkprinterStr (b : CBuf) : C (CBuf × Nat) := do
  let b ← b.store 0 0
  return (b, 0)

/-- print the characters `cs` through a state machine `put` -/
def runPut {σ : Type} (put : σ → Int → C σ) : σ → List Int → C σ
  | st, [] => return st
  | st, c :: cs => do
    let st ← put st c
    runPut put st cs

/-- `export_wisdom_to_string`, api/export-wisdom-to-string.c:23-42, `cs` being the characters that `exprt` prints
(both passes print the same characters, the planner being unchanged); `malloc` succeeds. -/
def exportToString (cs : List Int) : C CBuf := do
  let cnt := cntPrinter cs
  let s : CBuf := List.replicate (cnt + 1) none
  let p ← mkprinterStr s
  let p ← runPut putchrStr p cs
  return p.1

/-- file printer, api/mkprinter-file.c:26-31; `buf` is the part of the 256-byte buffer before `bufw`,
`file` what has been `fwrite`n (fwrite assumed to succeed) -/
structure FilePrinter where
  file : List Int
  buf : List Int

/-- `myflush`, api/mkprinter-file.c:33-37 -/
def myflush (p : FilePrinter) : FilePrinter := { file := p.file ++ p.buf, buf := [] }

/-- `myputchr`, api/mkprinter-file.c:39-45 (BUFSZ = 256); a store past the buffer is undefined -/
def myputchr (p : FilePrinter) (c : Int) : C FilePrinter :=
  let p := if p.buf.length ≥ 256 then myflush p else p
  if p.buf.length < 256 then some { p with buf := p.buf ++ [c] } else none

/-- `export_wisdom_to_file`: mkprinter_file, exprt, printer_destroy → mycleanup
(api/export-wisdom-to-file.c, api/mkprinter-file.c:47-59) -/
def exportToFile (cs : List Int) : C (List Int) := do
  let p ← runPut myputchr { file := [], buf := [] } cs
  return (myflush p).file

end FFTW.Print
