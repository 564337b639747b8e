import Verif.Model.CInt
import Mathlib.Analysis.SpecialFunctions.Log.Basic
/-!
# `api/mapflags.c` — API flags to planner flags
-/

namespace FFTW.MapFlags

/-- `unsigned` -/
abbrev U32 := BitVec 32

/-! API flags, api/fftw3.h:495-520 -/
/-- api/fftw3.h:496 -/ def FFTW_DESTROY_INPUT : U32 := 1#32 <<< 0
/-- api/fftw3.h:498 -/ def FFTW_CONSERVE_MEMORY : U32 := 1#32 <<< 2
/-- api/fftw3.h:499 -/ def FFTW_EXHAUSTIVE : U32 := 1#32 <<< 3
/-- api/fftw3.h:500 -/ def FFTW_PRESERVE_INPUT : U32 := 1#32 <<< 4
/-- api/fftw3.h:501 -/ def FFTW_PATIENT : U32 := 1#32 <<< 5
/-- api/fftw3.h:502 -/ def FFTW_ESTIMATE : U32 := 1#32 <<< 6
/-- api/fftw3.h:506 -/ def FFTW_ESTIMATE_PATIENT : U32 := 1#32 <<< 7
/-- api/fftw3.h:507 -/ def FFTW_BELIEVE_PCOST : U32 := 1#32 <<< 8
/-- api/fftw3.h:508 -/ def FFTW_NO_DFT_R2HC : U32 := 1#32 <<< 9
/-- api/fftw3.h:509 -/ def FFTW_NO_NONTHREADED : U32 := 1#32 <<< 10
/-- api/fftw3.h:510 -/ def FFTW_NO_BUFFERING : U32 := 1#32 <<< 11
/-- api/fftw3.h:511 -/ def FFTW_NO_INDIRECT_OP : U32 := 1#32 <<< 12
/-- api/fftw3.h:512 -/ def FFTW_ALLOW_LARGE_GENERIC : U32 := 1#32 <<< 13
/-- api/fftw3.h:513 -/ def FFTW_NO_RANK_SPLITS : U32 := 1#32 <<< 14
/-- api/fftw3.h:514 -/ def FFTW_NO_VRANK_SPLITS : U32 := 1#32 <<< 15
/-- api/fftw3.h:515 -/ def FFTW_NO_VRECURSE : U32 := 1#32 <<< 16
/-- api/fftw3.h:516 -/ def FFTW_NO_SIMD : U32 := 1#32 <<< 17
/-- api/fftw3.h:517 -/ def FFTW_NO_SLOW : U32 := 1#32 <<< 18
/-- api/fftw3.h:518 -/ def FFTW_NO_FIXED_RADIX_LARGE_N : U32 := 1#32 <<< 19
/-- api/fftw3.h:519 -/ def FFTW_ALLOW_PRUNING : U32 := 1#32 <<< 20

/-! planner flags, kernel/ifftw.h:646-665 -/
/-- kernel/ifftw.h:647 -/ def BELIEVE_PCOST : U32 := 0x0001
/-- kernel/ifftw.h:648 -/ def ESTIMATE : U32 := 0x0002
/-- kernel/ifftw.h:649 -/ def NO_DFT_R2HC : U32 := 0x0004
/-- kernel/ifftw.h:650 -/ def NO_SLOW : U32 := 0x0008
/-- kernel/ifftw.h:651 -/ def NO_VRECURSE : U32 := 0x0010
/-- kernel/ifftw.h:652 -/ def NO_INDIRECT_OP : U32 := 0x0020
/-- kernel/ifftw.h:653 -/ def NO_LARGE_GENERIC : U32 := 0x0040
/-- kernel/ifftw.h:654 -/ def NO_RANK_SPLITS : U32 := 0x0080
/-- kernel/ifftw.h:655 -/ def NO_VRANK_SPLITS : U32 := 0x0100
/-- kernel/ifftw.h:656 -/ def NO_NONTHREADED : U32 := 0x0200
/-- kernel/ifftw.h:657 -/ def NO_BUFFERING : U32 := 0x0400
/-- kernel/ifftw.h:658 -/ def NO_FIXED_RADIX_LARGE_N : U32 := 0x0800
/-- kernel/ifftw.h:659 -/ def NO_DESTROY_INPUT : U32 := 0x1000
/-- kernel/ifftw.h:660 -/ def NO_SIMD : U32 := 0x2000
/-- kernel/ifftw.h:661 -/ def CONSERVE_MEMORY : U32 := 0x4000
/-- kernel/ifftw.h:662 -/ def NO_DHT_R2HC : U32 := 0x8000
/-- kernel/ifftw.h:663 -/ def NO_UGLY : U32 := 0x10000
/-- kernel/ifftw.h:664 -/ def ALLOW_PRUNING : U32 := 0x20000

/-- `flagmask`, api/mapflags.c:27-29 -/
structure FlagMask where
  x : U32
  xm : U32

/-- `flagop`, api/mapflags.c:31-34 -/
structure FlagOp where
  flag : FlagMask
  op : FlagMask

/-- `FLAGP`, api/mapflags.c:36 -/
def FLAGP (f : U32) (msk : FlagMask) : U32 := (f &&& msk.x) ^^^ msk.xm
/-- `OP`, api/mapflags.c:37 -/
def OP (f : U32) (msk : FlagMask) : U32 := (f ||| msk.x) ^^^ msk.xm
/-- `YES`, api/mapflags.c:39 -/
def YES (x : U32) : FlagMask := ⟨x, 0⟩
/-- `NO`, api/mapflags.c:40 -/
def NO (x : U32) : FlagMask := ⟨x, x⟩
/-- `IMPLIES`, api/mapflags.c:41 -/
def IMPLIES (p c : FlagMask) : List FlagOp := [⟨p, c⟩]
/-- `EQV`, api/mapflags.c:42 -/
def EQV (a b : U32) : List FlagOp := IMPLIES (YES a) (YES b) ++ IMPLIES (NO a) (NO b)
/-- `NEQV`, api/mapflags.c:43 -/
def NEQV (a b : U32) : List FlagOp := IMPLIES (YES a) (NO b) ++ IMPLIES (NO a) (YES b)

/-- `map_flags`, api/mapflags.c:45-52, `iflags` and `oflags` distinct objects -/
def mapFlags (iflags oflags : U32) (flagmap : List FlagOp) : U32 :=
  flagmap.foldl (fun o r => if FLAGP iflags r.flag ≠ 0 then OP o r.op else o) oflags

/-- `map_flags(&flags, &flags, …)`: the same loop with the two pointers aliased, as called at api/mapflags.c:141 -/
def mapFlagsSelf (flags : U32) (flagmap : List FlagOp) : U32 :=
  flagmap.foldl (fun f r => if FLAGP f r.flag ≠ 0 then OP f r.op else f) flags

/-- `self_flagmap`, api/mapflags.c:84-117 -/
def selfFlagmap : List FlagOp := List.flatten [
  IMPLIES (YES FFTW_PRESERVE_INPUT) (NO FFTW_DESTROY_INPUT),
  IMPLIES (NO FFTW_DESTROY_INPUT) (YES FFTW_PRESERVE_INPUT),
  IMPLIES (YES FFTW_EXHAUSTIVE) (YES FFTW_PATIENT),
  IMPLIES (YES FFTW_ESTIMATE) (NO FFTW_PATIENT),
  IMPLIES (YES FFTW_ESTIMATE) (YES (FFTW_ESTIMATE_PATIENT ||| FFTW_NO_INDIRECT_OP ||| FFTW_ALLOW_PRUNING)),
  IMPLIES (NO FFTW_EXHAUSTIVE) (YES FFTW_NO_SLOW),
  IMPLIES (NO FFTW_PATIENT) (YES (FFTW_NO_VRECURSE ||| FFTW_NO_RANK_SPLITS ||| FFTW_NO_VRANK_SPLITS
    ||| FFTW_NO_NONTHREADED ||| FFTW_NO_DFT_R2HC ||| FFTW_NO_FIXED_RADIX_LARGE_N ||| FFTW_BELIEVE_PCOST))]

/-- `l_flagmap`, api/mapflags.c:120-126 -/
def lFlagmap : List FlagOp := List.flatten [
  EQV FFTW_PRESERVE_INPUT NO_DESTROY_INPUT,
  EQV FFTW_NO_SIMD NO_SIMD,
  EQV FFTW_CONSERVE_MEMORY CONSERVE_MEMORY,
  EQV FFTW_NO_BUFFERING NO_BUFFERING,
  NEQV FFTW_ALLOW_LARGE_GENERIC NO_LARGE_GENERIC]

/-- `u_flagmap`, api/mapflags.c:128-146 -/
def uFlagmap : List FlagOp := List.flatten [
  IMPLIES (YES FFTW_EXHAUSTIVE) (NO 0xFFFFFFFF),
  IMPLIES (NO FFTW_EXHAUSTIVE) (YES NO_UGLY),
  EQV FFTW_ESTIMATE_PATIENT ESTIMATE,
  EQV FFTW_ALLOW_PRUNING ALLOW_PRUNING,
  EQV FFTW_BELIEVE_PCOST BELIEVE_PCOST,
  EQV FFTW_NO_DFT_R2HC NO_DFT_R2HC,
  EQV FFTW_NO_NONTHREADED NO_NONTHREADED,
  EQV FFTW_NO_INDIRECT_OP NO_INDIRECT_OP,
  EQV FFTW_NO_RANK_SPLITS NO_RANK_SPLITS,
  EQV FFTW_NO_VRANK_SPLITS NO_VRANK_SPLITS,
  EQV FFTW_NO_VRECURSE NO_VRECURSE,
  EQV FFTW_NO_SLOW NO_SLOW,
  EQV FFTW_NO_FIXED_RADIX_LARGE_N NO_FIXED_RADIX_LARGE_N]

/-- C conversion `double → int`: truncation toward zero, undefined when the result does not fit in 32 bits -/
noncomputable def toInt (x : ℝ) : C Int :=
  let i := if 0 ≤ x then ⌊x⌋ else ⌈x⌉
  if -2 ^ 31 ≤ i ∧ i < 2 ^ 31 then some i else none

/-- `timelimit_to_flags`, api/mapflags.c:58-75 (BITS_FOR_TIMELIMIT = 9, kernel/ifftw.h:629), over exact reals -/
noncomputable def timelimitToFlags (timelimit : ℝ) : C Nat :=
  let tmax : ℝ := 365 * 24 * 3600
  let tstep : ℝ := 1.05
  let nsteps : Int := 512
  if timelimit < 0 ∨ timelimit ≥ tmax then some 0
  else if timelimit ≤ 1.0e-10 then some (nsteps - 1).toNat
  else do
    let x ← toInt (0.5 + (Real.log (tmax / timelimit) / Real.log tstep))
    let x := if x < 0 then 0 else x
    let x := if x ≥ nsteps then nsteps - 1 else x
    some x.toNat

/-- the planner fields set by `mapflags`; bit-field widths from kernel/ifftw.h:628-641 -/
structure PlnrFlags where
  l : BitVec 20
  u : BitVec 20
  tli : BitVec 9

/-- `mapflags`, api/mapflags.c:77-166.  The two `A(...)` assertions of lines 157-158 and the one of line 164 are
modelled as failure (`none`) when they do not hold. -/
noncomputable def mapflags (timelimit : ℝ) (flags : U32) : C PlnrFlags := do
  let flags := mapFlagsSelf flags selfFlagmap
  let l := mapFlags flags 0 lFlagmap
  let u := mapFlags flags 0 uFlagmap
  let pl := l.setWidth 20
  let pu := (u ||| l).setWidth 20
  if pl.setWidth 32 = l ∧ pu.setWidth 32 = u ||| l then
    let t ← timelimitToFlags timelimit
    let pt := BitVec.ofNat 9 t
    if pt.toNat = t then some { l := pl, u := pu, tli := pt } else none
  else none

end FFTW.MapFlags
