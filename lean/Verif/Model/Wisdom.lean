import Verif.Model.Planner
import Verif.Model.Scan
import Verif.Model.Md5

/-!
# `kernel/planner.c` — reading and writing wisdom

`md5uint` is 32 bits, `int` and `unsigned` are 32 bits, `R` is `double`.  The configuration signature is computed with a
zeroed buffer (`C24` shows that the buffer's initial contents do not matter).
-/

namespace FFTW.Planner
open FFTW.Scan FFTW.Print

/-- `MAXNAM`, kernel/planner.c:40 -/
def MAXNAM : Int := 64

/-- the characters of a C string -/
def cstr (s : List UInt8) : List Int := s.map fun c => (c.toNat : Int)

/-- `X(hash)`, kernel/hash.c:23-30; `s` without the final NUL, which is hashed too.  (`*s & 0xFF` of a `char`.) -/
def hash (s : List Int) : BitVec 32 := (s ++ [0]).foldl (fun (h : BitVec 32) (c : Int) => h * 17 + BitVec.ofNat 32 (c % 256).toNat) 0xDEADBEEF#32

/-- what `strcmp` sees of a buffer: everything before the first NUL -/
def upToNul (s : List Int) : List Int := s.takeWhile (fun c => decide (c ≠ 0))

/-- the loop of `slookup`, kernel/planner.c:126-131: index of the first match -/
def slookupLoop (nam : List Int) (id : Int) : List SlvDesc → Nat → Option Nat
  | [], _ => none
  | d :: ds, i =>
    if d.regId = id ∧ hash (cstr d.regNam) = hash nam ∧ cstr d.regNam = nam then some i else slookupLoop nam id ds (i + 1)

/-- `slookup`, kernel/planner.c:123-133 -/
def slookup (env : Env) (nam : List Int) (id : Int) : Nat := (slookupLoop nam id env.slvdescs 0).getD INFEASIBLE_SLVNDX.toNat

/-- the four bytes of an `int` or `unsigned`, least significant first (`md5int`, `md5unsigned`, kernel/md5-1.c:40-53, on a
little-endian machine) -/
def bytes4 (x : Int) : List Md5.Byte := (List.range 4).map fun k => BitVec.ofInt 8 (x / 2 ^ (8 * k))

/-- one round of the loop in `signature_of_configuration`, kernel/planner.c:142-146 -/
def sigStep (m : Md5.Ctx 32) (d : SlvDesc) : Md5.Ctx 32 :=
  Md5.puts (Md5.putb m (bytes4 d.regId)) (d.regNam.map UInt8.toBitVec)

/-- `signature_of_configuration`, kernel/planner.c:138-148 -/
def signatureOfConfiguration (env : Env) : Option MSig := do
  let m := Md5.begin 32 fun _ => 0
  let m := Md5.putb m (bytes4 8)                   -- sizeof(double)
  let m := env.slvdescs.foldl sigStep m
  let m ← Md5.end m
  return ⟨m.s.s0.toNat, m.s.s1.toNat, m.s.s2.toNat, m.s.s3.toNat⟩

/-- the header format, kernel/planner.c:786, 800, 848 with PACKAGE, VERSION of configure.ac:7-12 and the double-precision
prefix -/
def headerFmt : List Char := "(fftw-3.3.11 fftw_wisdom #x%M #x%M #x%M #x%M\n".toList
/-- kernel/planner.c:821 -/
def entryFmt : List Char := "  (%s %d #x%x #x%x #x%x #x%M #x%M #x%M #x%M)\n".toList
/-- kernel/planner.c:873 -/
def entryScanFmt : List Char := "(%*s %d #x%x #x%x #x%x #x%M #x%M #x%M #x%M)".toList
/-- `stimeout`, kernel/planner.c:787 -/
def stimeout : List Int := "TIMEOUT".toList.map chr

/-- name and number printed for a solution, kernel/planner.c:807-816 -/
def exportName (env : Env) (l : Slot) : Option (List Int × Int) :=
  if l.slvndx = INFEASIBLE_SLVNDX then some (stimeout, 0)
  else env.slvdescs[l.slvndx.toNat]?.map fun d => (cstr d.regNam, d.regId)

/-- one solution, kernel/planner.c:804-826 -/
def exportSlot (env : Env) (l : Slot) : Option (List Int) := do
  let (nam, id) ← exportName env l
  vprint entryFmt [.str nam, .int id, .uns l.fl.l.toNat, .uns l.fl.u.toNat, .uns l.fl.tli.toNat,
    .md5 l.s.s0, .md5 l.s.s1, .md5 l.s.s2, .md5 l.s.s3]

/-- the loop of `exprt`, kernel/planner.c:802-827 -/
def exportLoop (env : Env) : List Slot → Option (List Int)
  | [] => some []
  | l :: rest =>
    if l.live then do
      let a ← exportSlot env l
      let r ← exportLoop env rest
      return a ++ r
    else exportLoop env rest

/-- `exprt`, kernel/planner.c:790-829: the characters printed -/
def exprt (env : Env) (st : PSt) : Option (List Int) := do
  let m ← signatureOfConfiguration env
  let h ← vprint headerFmt [.md5 m.s0, .md5 m.s1, .md5 m.s2, .md5 m.s3]
  let b ← exportLoop env st.blessed.sols
  let e ← vprint ")\n".toList []
  return h ++ b ++ e

/-- an `int` stored through `unsigned *`, read back -/
def asUnsigned (x : Int) : Nat := (x % 2 ^ 32).toNat

/-- the loop body of `imprt` after a successful scan, kernel/planner.c:877-902; `none`: `goto bad` -/
def importEntry (env : Env) (st : PSt) (buf : List Int) (regId : Int) (l u tli : Nat) (sig : MSig) : Res (Option PSt) := do
  let slvndx : Option Nat :=
    if upToNul buf = stimeout ∧ regId = 0 then some INFEASIBLE_SLVNDX.toNat
    else if tli ≠ 0 then none
    else
      let i := slookup env (upToNul buf) regId
      if i = INFEASIBLE_SLVNDX.toNat then none else some i
  match slvndx with
  | none => .ok none
  | some i =>
    let flags : FlagsT := ⟨BitVec.ofNat 20 l, BitVec.ofNat 20 u, BitVec.ofNat 9 tli, BLESSING⟩
    if flags.l.toNat ≠ l ∨ flags.u.toNat ≠ u ∨ flags.tli.toNat ≠ tli then .error .abort       -- CK
    else do
      let r ← hlookup st sig flags
      if r.isNone then do
        let st ← hinsert st sig flags (BitVec.ofNat 12 i)
        return some st
      else return some st

/-- the `while (1)` loop of `imprt`, kernel/planner.c:868-903.  The result says whether `)` was reached; outer `none`: the
loop does not end. -/
def importLoop (env : Env) (st : PSt) (sc : Scanner) : Option (Res (Bool × PSt × Scanner)) :=
  match vscan sc ")".toList [] with
  | none => some (.error .ub)
  | some (true, _, sc) => some (.ok (true, st, sc))
  | some (false, _, sc) =>
    match vscan sc entryScanFmt [MAXNAM] with
    | none => some (.error .ub)
    | some (true, [.str buf, .int regId, .int l, .int u, .int tli, .md5 s0, .md5 s1, .md5 s2, .md5 s3], sc) =>
      match importEntry env st buf regId (asUnsigned l) (asUnsigned u) (asUnsigned tli) ⟨s0, s1, s2, s3⟩ with
      | .error e => some (.error e)
      | .ok none => some (.ok (false, st, sc))
      | .ok (some st) => importLoop env st sc
    | some (true, _, _) => some (.error .ub)
    | some (false, _, sc) => some (.ok (false, st, sc))
partial_fixpoint

/-- `imprt` after the header was accepted, kernel/planner.c:859-912: `old` is the backup of the table of saved wisdom, put
back on failure -/
def importBody (env : Env) (st : PSt) (sc : Scanner) : Option (Res (Bool × PSt)) :=
  let old := st.blessed
  match importLoop env st sc with
  | none => none
  | some (.error e) => some (.error e)
  | some (.ok (true, st, _)) => some (.ok (true, st))
  | some (.ok (false, st, _)) => some (.ok (false, { st with blessed := old }))

/-- `imprt`, kernel/planner.c:833-912: return value and planner -/
def imprt (env : Env) (st : PSt) (sc : Scanner) : Option (Res (Bool × PSt)) :=
  match vscan sc headerFmt [] with
  | none => some (.error .ub)
  | some (true, [.md5 s0, .md5 s1, .md5 s2, .md5 s3], sc) =>
    match signatureOfConfiguration env with
    | none => some (.error .ub)
    | some m =>
      if m.s0 ≠ s0 ∨ m.s1 ≠ s1 ∨ m.s2 ≠ s2 ∨ m.s3 ≠ s3 then some (.ok (false, st))
      else importBody env st sc
  | some (true, _, _) => some (.error .ub)
  | some (false, _, _) => some (.ok (false, st))

/-- `getchr_str`, api/import-wisdom-from-string.c:28-34: what a string delivers before `EOF`.  `char` is signed, so that
byte 0xFF is delivered as -1, that is `EOF`. -/
def strInput (s : List UInt8) : List Int := (s.takeWhile (fun c => decide (c ≠ 0))).map fun c => if c.toNat < 128 then (c.toNat : Int) else (c.toNat : Int) - 256

/-- `import_wisdom_from_string`, api/import-wisdom-from-string.c:45-52 -/
def importFromString (env : Env) (st : PSt) (s : List UInt8) : Option (Res (Bool × PSt)) := imprt env st (mkScanner (strInput s))

end FFTW.Planner
