import Verif.Model.Wisdom

/-!
# `api/import-wisdom-from-file.c`, `api/import-system-wisdom.c`: reading wisdom from files

A file is what the coming calls of `fread` find: pieces of any size (a pipe may deliver a few bytes at a time), then the end for ever.  Paths are not modelled: opening a file either fails or gives one.
-/

namespace FFTW.Planner
open FFTW.Scan

/-- `S`, api/import-wisdom-from-file.c:35-40: `buf` has 256 bytes; `bufr`, `bufw` are offsets -/
structure FileScanner where
  pieces : List (List UInt8)
  buf : List UInt8
  bufr : Nat
  bufw : Nat

/-- `fread(_, 1, n, f)` -/
def fread (n : Nat) : List (List UInt8) → List UInt8 × List (List UInt8)
  | [] => ([], [])
  | p :: ps => (p.take n, if n < p.length then p.drop n :: ps else ps)

/-- a `char` (which is signed) as an `int` -/
def signedChar (c : UInt8) : Int := if c.toNat < 128 then (c.toNat : Int) else (c.toNat : Int) - 256

/-- `getchr_file`, api/import-wisdom-from-file.c:42-54; reading past the buffer is undefined -/
def getchrFile (s : FileScanner) : C (Int × FileScanner) :=
  if s.bufr ≥ s.bufw then
    let (p, rest) := fread 256 s.pieces
    let s' : FileScanner := { pieces := rest, buf := p ++ s.buf.drop p.length, bufr := 0, bufw := p.length }
    if s'.bufr ≥ s'.bufw then some (EOF, s')
    else match s'.buf[s'.bufr]? with
      | none => none
      | some c => some (signedChar c, { s' with bufr := s'.bufr + 1 })
  else match s.buf[s.bufr]? with
    | none => none
    | some c => some (signedChar c, { s with bufr := s.bufr + 1 })

/-- `mkscanner_file`, api/import-wisdom-from-file.c:56-62; the buffer has any contents -/
def mkScannerFile (pieces : List (List UInt8)) (buf : List UInt8) : FileScanner := { pieces, buf, bufr := 0, bufw := 0 }

/-- `import_wisdom_from_file`, api/import-wisdom-from-file.c:64-71.  The scanner is given by what `getchr_file` will deliver: `C46_file_reader`. -/
def importFromFile (env : Env) (st : PSt) (pieces : List (List UInt8)) : Option (Res (Bool × PSt)) := imprt env st (mkScanner (pieces.flatten.map signedChar))

/-- `import_wisdom_from_filename`, api/import-wisdom-from-file.c:73-81: `none` if `fopen` fails -/
def importFromFilename (env : Env) (st : PSt) (f : Option (List (List UInt8))) (fcloseFails : Bool) : Option (Res (Bool × PSt)) :=
  match f with
  | none => some (.ok (false, st))
  | some pieces => match importFromFile env st pieces with
    | some (.ok (ret, st')) => some (.ok (if fcloseFails then false else ret, st'))
    | r => r

/-- `import_system_wisdom`, api/import-system-wisdom.c:38-53 (not Windows) -/
def importSystemWisdom (env : Env) (st : PSt) (f : Option (List (List UInt8))) : Option (Res (Bool × PSt)) :=
  match f with
  | some pieces => importFromFile env st pieces
  | none => some (.ok (false, st))

end FFTW.Planner
