import Verif.Model.Planner
import Verif.Model.RowMajor

/-!
# `api/plan-many-dft.c`, `api/plan-dft.c`, `api/plan-dft-{1,2,3}d.c`, `api/plan-guru-dft.h`, `api/plan-guru-split-dft.h`, `api/execute*.c`

The alignment bits of `TAINT_UNALIGNED` are not modelled (a plan's `apply` here works for every alignment).  Ranks are list lengths, so
finite; `RNK_MINFTY` cannot be passed.
-/

namespace FFTW.Api
open Planner RowMajor Tensor
open MapFlags (U32)

/-- result of an `int` expression: 32 bits -/
def int32 (x : Int) : C Int := if -2 ^ 31 ≤ x ∧ x < 2 ^ 31 then some x else none

/-- `struct apiplan`, api/api.h:62-67; `refcount` is in Model/Refcount -/
structure ApiPlan where
  pln : Plan
  prb : Problem
  sign : Int

/-- `FFT_SIGN`, kernel/ifftw.h:92 -/
def FFT_SIGN : Int := -1

/-- `X(extract_reim)`, kernel/extract-reim.c:28-38 -/
def extractReim (sign : Int) (c : Ptr) : Ptr × Ptr := if sign = FFT_SIGN then (c + (0 : ℤ), c + (1 : ℤ)) else (c + (1 : ℤ), c + (0 : ℤ))

/-- `iodim` with its extent as a natural number; extents are nonnegative when this is reached -/
def ofIo (d : IoDim) : Dim := ⟨d.n.toNat, d.is, d.os⟩

/-- arguments of `fftw_plan_many_dft`; `rank` is the length of `n`, null `nembed` is `none` -/
structure Many where
  n : List Int
  howmany : Int
  inp : Ptr
  inembed : Option (List Int)
  istride : Int
  idist : Int
  out : Ptr
  onembed : Option (List Int)
  ostride : Int
  odist : Int
  sign : Int

section
variable [CLib]

/-- the problem `X(plan_many_dft)` poses, api/plan-many-dft.c:33-50; `some none`: refused by `X(many_kosherp)`, the function returns 0 -/
def manyDftProblem (a : Many) : C (Option Problem) :=
  if manyKosherp a.n a.howmany = false then some none
  else do
    let ri := (extractReim a.sign a.inp).1
    let ii := (extractReim a.sign a.inp).2
    let ro := (extractReim a.sign a.out).1
    let io := (extractReim a.sign a.out).2
    let is ← int32 (2 * a.istride)
    let os ← int32 (2 * a.ostride)
    let sz ← mktensorRowmajor (a.n.zip ((a.inembed.getD a.n).zip (a.onembed.getD a.n))) is os
    let id ← int32 (2 * a.idist)
    let od ← int32 (2 * a.odist)
    pure (some (mkproblemDft (sz.map ofIo) (some [ofIo ⟨a.howmany, id, od⟩]) ri ii ro io))

/-- `fftw_iodim`, api/fftw3.h -/
abbrev IODim := IoDim

/-- `iodims_kosherp`, api/mktensor-iodims.h:39-57 (finite rank) -/
def iodimsKosherp (dims : List IODim) (allowMinfty : Bool) : Bool :=
  if allowMinfty then dims.all fun d => !decide (d.n < 0) else dims.all fun d => !decide (d.n ≤ 0)

/-- `GURU_KOSHERP`, api/mktensor-iodims.h:59-64 -/
def guruKosherp (dims howmany : List IODim) : Bool := iodimsKosherp dims false && iodimsKosherp howmany true

/-- `MKTENSOR_IODIMS`, api/mktensor-iodims.h:23-37.  `dims[i].is * is` is an `int` product in the 32-bit interface and a `ptrdiff_t`
product in the guru64 interface: `chk` is the range check of the type in question. -/
def mktensorIodims (chk : Int → C Int) (dims : List IODim) (is os : Int) : C (List Dim) :=
  dims.mapM fun d => do
    let i ← chk (d.is * is)
    let o ← chk (d.os * os)
    pure ⟨d.n.toNat, i, o⟩

/-- the problem `XGURU(dft)` poses, api/plan-guru-dft.h:24-46 -/
def guruDftProblem (chk : Int → C Int) (dims howmany : List IODim) (inp out : Ptr) (sign : Int) : C (Option Problem) :=
  if guruKosherp dims howmany = false then some none
  else do
    let ri := (extractReim sign inp).1
    let ii := (extractReim sign inp).2
    let ro := (extractReim sign out).1
    let io := (extractReim sign out).2
    let sz ← mktensorIodims chk dims 2 2
    let v ← mktensorIodims chk howmany 2 2
    pure (some (mkproblemDft sz (some v) ri ii ro io))

/-- the problem `XGURU(split_dft)` poses, api/plan-guru-split-dft.h:24-40 -/
def guruSplitProblem (chk : Int → C Int) (dims howmany : List IODim) (ri ii ro io : Ptr) : C (Option Problem) :=
  if guruKosherp dims howmany = false then some none
  else do
    let sz ← mktensorIodims chk dims 1 1
    let v ← mktensorIodims chk howmany 1 1
    pure (some (mkproblemDft sz (some v) ri ii ro io))

end

/-- `X(mkapiplan)(sign, flags, prb)`, api/apiplan.c:86-167, with the problem still to be computed; null problem: the caller returned 0 -/
noncomputable def planWith (env : Env) (n : ℕ) (tl : ℝ) (flags : U32) (sign : Int) (prb : C (Option Problem)) (st : PSt) : Res (Option ApiPlan × PSt) :=
  match prb with
  | none => .error .ub
  | some none => .ok (none, st)
  | some (some p) =>
    match mkapiplan env n tl flags p st with
    | .error e => .error e
    | .ok (none, st) => .ok (none, st)
    | .ok (some pl, st) => .ok (some ⟨pl, p, sign⟩, st)

section
variable [CLib]
/-- `X(plan_many_dft)`, api/plan-many-dft.c:26-53 -/
noncomputable def planManyDft (env : Env) (n : ℕ) (tl : ℝ) (flags : U32) (a : Many) (st : PSt) : Res (Option ApiPlan × PSt) :=
  planWith env n tl flags a.sign (manyDftProblem a) st

/-- `X(plan_dft)`, api/plan-dft.c:23-30; `X(plan_dft_1d)`, `X(plan_dft_2d)`, `X(plan_dft_3d)` (api/plan-dft-1d.c:23-26 etc.) call it with
the list of their sizes -/
noncomputable def planDft (env : Env) (n : ℕ) (tl : ℝ) (flags : U32) (sizes : List Int) (inp out : Ptr) (sign : Int) (st : PSt) :
    Res (Option ApiPlan × PSt) :=
  planManyDft env n tl flags ⟨sizes, 1, inp, none, 1, 1, out, none, 1, 1, sign⟩ st

/-- `XGURU(dft)`, api/plan-guru-dft.h:24-46 -/
noncomputable def planGuruDft (chk : Int → C Int) (env : Env) (n : ℕ) (tl : ℝ) (flags : U32) (dims howmany : List IODim) (inp out : Ptr)
    (sign : Int) (st : PSt) : Res (Option ApiPlan × PSt) :=
  planWith env n tl flags sign (guruDftProblem chk dims howmany inp out sign) st

/-- `XGURU(split_dft)`, api/plan-guru-split-dft.h:24-40 -/
noncomputable def planGuruSplitDft (chk : Int → C Int) (env : Env) (n : ℕ) (tl : ℝ) (flags : U32) (dims howmany : List IODim)
    (ri ii ro io : Ptr) (st : PSt) : Res (Option ApiPlan × PSt) :=
  planWith env n tl flags (if (ii - ri : ℤ) = (1 : ℤ) ∧ (io - ro : ℤ) = (1 : ℤ) then FFT_SIGN else -FFT_SIGN) (guruSplitProblem chk dims howmany ri ii ro io) st
end

/-- `X(execute)`, api/execute.c:23-27, with `X(dft_solve)`, dft/solve.c:24-31, `X(rdft_solve)`, rdft/solve.c:24-29,
and `X(rdft2_solve)`, rdft/solve2.c:24-31 -/
def execute (p : ApiPlan) (st : State) : State :=
  match p.prb with
  | .dft q => p.pln.dftApply q.ri q.ii q.ro q.io st
  | .rdft q => p.pln.rdftApply q.I q.O st
  | .rdft2 q => p.pln.rdft2Apply q.r0 q.r1 q.cr q.ci st
  | .rdft2s q => p.pln.rdft2Apply q.r0 q.r1 q.cr q.ci st           -- not reached: no API function makes such problems
  | .unsolvable => st                                             -- `unsolvable` problems have no plans

/-- `X(execute_dft)`, api/execute-dft.c:25-32 -/
def executeDft (p : ApiPlan) (inp out : Ptr) (st : State) : State :=
  if p.sign = FFT_SIGN then p.pln.dftApply (inp + (0 : ℤ)) (inp + (1 : ℤ)) (out + (0 : ℤ)) (out + (1 : ℤ)) st
  else p.pln.dftApply (inp + (1 : ℤ)) (inp + (0 : ℤ)) (out + (1 : ℤ)) (out + (0 : ℤ)) st

/-- `X(execute_split_dft)`, api/execute-split-dft.c:25-29 -/
def executeSplitDft (p : ApiPlan) (ri ii ro io : Ptr) (st : State) : State := p.pln.dftApply ri ii ro io st

/-- `X(execute_r2r)`, api/execute-r2r.c:25-29 -/
def executeR2r (p : ApiPlan) (inp out : Ptr) (st : State) : State := p.pln.rdftApply inp out st

end FFTW.Api
