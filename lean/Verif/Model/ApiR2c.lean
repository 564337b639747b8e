import Verif.Model.Api

/-!
# `api/plan-many-dft-r2c.c`, `api/plan-many-dft-c2r.c`, `api/plan-dft-r2c.c`, `api/plan-dft-c2r.c` and their `-1d`, `-2d`, `-3d` versions,
`api/plan-guru-dft-r2c.h`, `api/plan-guru-dft-c2r.h`, `api/plan-guru-split-dft-r2c.h`, `api/plan-guru-split-dft-c2r.h`, `api/execute-dft-r2c.c`,
`api/execute-dft-c2r.c`, `api/execute-split-dft-r2c.c`, `api/execute-split-dft-c2r.c`
-/

namespace FFTW.Api
open Planner RowMajor Tensor
open MapFlags (U32 FFTW_DESTROY_INPUT)

section
variable [CLib]

/-- the problem `X(plan_many_dft_r2c)` poses, api/plan-many-dft-r2c.c:36-56; `a.sign` is not an argument there -/
def manyR2cProblem (a : Many) : C (Option Problem) :=
  if manyKosherp a.n a.howmany = false then some none
  else do
    let ro := (extractReim FFT_SIGN a.out).1
    let io := (extractReim FFT_SIGN a.out).2
    let inplace := decide (a.inp = ro)
    let os ← int32 (2 * a.ostride)
    let sz ← mktensorRowmajor (a.n.zip (((rdft2Pad a.n a.inembed inplace false).getD []).zip ((rdft2Pad a.n a.onembed inplace true).getD []))) a.istride os
    let od ← int32 (2 * a.odist)
    pure (some (mkproblemRdft2_3pointers (sz.map ofIo) (some [ofIo ⟨a.howmany, a.idist, od⟩]) a.inp ro io .R2HC))

/-- the problem `X(plan_many_dft_c2r)` poses, api/plan-many-dft-c2r.c:36-58 -/
def manyC2rProblem (a : Many) : C (Option Problem) :=
  if manyKosherp a.n a.howmany = false then some none
  else do
    let ri := (extractReim FFT_SIGN a.inp).1
    let ii := (extractReim FFT_SIGN a.inp).2
    let inplace := decide (a.out = ri)
    let is ← int32 (2 * a.istride)
    let sz ← mktensorRowmajor (a.n.zip (((rdft2Pad a.n a.inembed inplace true).getD []).zip ((rdft2Pad a.n a.onembed inplace false).getD []))) is a.ostride
    let id ← int32 (2 * a.idist)
    pure (some (mkproblemRdft2_3pointers (sz.map ofIo) (some [ofIo ⟨a.howmany, id, a.odist⟩]) a.out ri ii .HC2R))

/-- the problem `XGURU(dft_r2c)` poses, api/plan-guru-dft-r2c.h:30-42 -/
def guruR2cProblem (chk : Int → C Int) (dims howmany : List IODim) (inp out : Ptr) : C (Option Problem) :=
  if guruKosherp dims howmany = false then some none
  else do
    let ro := (extractReim FFT_SIGN out).1
    let io := (extractReim FFT_SIGN out).2
    let sz ← mktensorIodims chk dims 1 2
    let v ← mktensorIodims chk howmany 1 2
    pure (some (mkproblemRdft2_3pointers sz (some v) inp ro io .R2HC))

/-- the problem `XGURU(dft_c2r)` poses, api/plan-guru-dft-c2r.h:29-44 -/
def guruC2rProblem (chk : Int → C Int) (dims howmany : List IODim) (inp out : Ptr) : C (Option Problem) :=
  if guruKosherp dims howmany = false then some none
  else do
    let ri := (extractReim FFT_SIGN inp).1
    let ii := (extractReim FFT_SIGN inp).2
    let sz ← mktensorIodims chk dims 2 1
    let v ← mktensorIodims chk howmany 2 1
    pure (some (mkproblemRdft2_3pointers sz (some v) out ri ii .HC2R))

/-- the problem `XGURU(split_dft_r2c)` poses, api/plan-guru-split-dft-r2c.h:29-38 -/
def guruSplitR2cProblem (chk : Int → C Int) (dims howmany : List IODim) (inp ro io : Ptr) : C (Option Problem) :=
  if guruKosherp dims howmany = false then some none
  else do
    let sz ← mktensorIodims chk dims 1 1
    let v ← mktensorIodims chk howmany 1 1
    pure (some (mkproblemRdft2_3pointers sz (some v) inp ro io .R2HC))

/-- the problem `XGURU(split_dft_c2r)` poses, api/plan-guru-split-dft-c2r.h:28-40 -/
def guruSplitC2rProblem (chk : Int → C Int) (dims howmany : List IODim) (ri ii out : Ptr) : C (Option Problem) :=
  if guruKosherp dims howmany = false then some none
  else do
    let sz ← mktensorIodims chk dims 1 1
    let v ← mktensorIodims chk howmany 1 1
    pure (some (mkproblemRdft2_3pointers sz (some v) out ri ii .HC2R))

/-- `if (out != ri) flags |= FFTW_DESTROY_INPUT`, e.g. api/plan-guru-dft-c2r.h:33-34 -/
def c2rFlags (flags : U32) (ri out : Ptr) : U32 := if out ≠ ri then flags ||| FFTW_DESTROY_INPUT else flags

/-- `X(plan_many_dft_r2c)`, api/plan-many-dft-r2c.c:24-62 -/
noncomputable def planManyR2c (env : Env) (n : ℕ) (tl : ℝ) (flags : U32) (a : Many) (st : PSt) : Res (Option ApiPlan × PSt) :=
  planWith env n tl flags 0 (manyR2cProblem a) st

/-- `X(plan_many_dft_c2r)`, api/plan-many-dft-c2r.c:24-64 -/
noncomputable def planManyC2r (env : Env) (n : ℕ) (tl : ℝ) (flags : U32) (a : Many) (st : PSt) : Res (Option ApiPlan × PSt) :=
  planWith env n tl (c2rFlags flags (extractReim FFT_SIGN a.inp).1 a.out) 0 (manyC2rProblem a) st

/-- `X(plan_dft_r2c)`, api/plan-dft-r2c.c:23-30; `X(plan_dft_r2c_1d)`, `X(plan_dft_r2c_2d)`, `X(plan_dft_r2c_3d)` call it with the list of their sizes -/
noncomputable def planDftR2c (env : Env) (n : ℕ) (tl : ℝ) (flags : U32) (sizes : List Int) (inp out : Ptr) (st : PSt) : Res (Option ApiPlan × PSt) :=
  planManyR2c env n tl flags ⟨sizes, 1, inp, none, 1, 1, out, none, 1, 1, 0⟩ st

/-- `X(plan_dft_c2r)`, api/plan-dft-c2r.c:23-30; `X(plan_dft_c2r_1d)`, `X(plan_dft_c2r_2d)`, `X(plan_dft_c2r_3d)` call it with the list of their sizes -/
noncomputable def planDftC2r (env : Env) (n : ℕ) (tl : ℝ) (flags : U32) (sizes : List Int) (inp out : Ptr) (st : PSt) : Res (Option ApiPlan × PSt) :=
  planManyC2r env n tl flags ⟨sizes, 1, inp, none, 1, 1, out, none, 1, 1, 0⟩ st

/-- `XGURU(dft_r2c)`, api/plan-guru-dft-r2c.h:24-43 -/
noncomputable def planGuruR2c (chk : Int → C Int) (env : Env) (n : ℕ) (tl : ℝ) (flags : U32) (dims howmany : List IODim) (inp out : Ptr) (st : PSt) :
    Res (Option ApiPlan × PSt) := planWith env n tl flags 0 (guruR2cProblem chk dims howmany inp out) st

/-- `XGURU(dft_c2r)`, api/plan-guru-dft-c2r.h:24-45 -/
noncomputable def planGuruC2r (chk : Int → C Int) (env : Env) (n : ℕ) (tl : ℝ) (flags : U32) (dims howmany : List IODim) (inp out : Ptr) (st : PSt) :
    Res (Option ApiPlan × PSt) := planWith env n tl (c2rFlags flags (extractReim FFT_SIGN inp).1 out) 0 (guruC2rProblem chk dims howmany inp out) st

/-- `XGURU(split_dft_r2c)`, api/plan-guru-split-dft-r2c.h:24-39 -/
noncomputable def planGuruSplitR2c (chk : Int → C Int) (env : Env) (n : ℕ) (tl : ℝ) (flags : U32) (dims howmany : List IODim) (inp ro io : Ptr) (st : PSt) :
    Res (Option ApiPlan × PSt) := planWith env n tl flags 0 (guruSplitR2cProblem chk dims howmany inp ro io) st

/-- `XGURU(split_dft_c2r)`, api/plan-guru-split-dft-c2r.h:24-41 -/
noncomputable def planGuruSplitC2r (chk : Int → C Int) (env : Env) (n : ℕ) (tl : ℝ) (flags : U32) (dims howmany : List IODim) (ri ii out : Ptr) (st : PSt) :
    Res (Option ApiPlan × PSt) := planWith env n tl (c2rFlags flags ri out) 0 (guruSplitC2rProblem chk dims howmany ri ii out) st

end

/-- `prb->r1 - prb->r0` -/
def realStep : Problem → ℤ
  | .rdft2 q => q.r1 - q.r0
  | _ => 0                                                        -- cannot happen: these plans come from `rdft2` problems

/-- `X(execute_dft_r2c)`, api/execute-dft-r2c.c:25-30 -/
def executeDftR2c (p : ApiPlan) (inp out : Ptr) (st : State) : State :=
  p.pln.rdft2Apply inp (inp + realStep p.prb) (out + (0 : ℤ)) (out + (1 : ℤ)) st

/-- `X(execute_dft_c2r)`, api/execute-dft-c2r.c:25-30 -/
def executeDftC2r (p : ApiPlan) (inp out : Ptr) (st : State) : State :=
  p.pln.rdft2Apply out (out + realStep p.prb) (inp + (0 : ℤ)) (inp + (1 : ℤ)) st

/-- `X(execute_split_dft_r2c)`, api/execute-split-dft-r2c.c:25-30 -/
def executeSplitDftR2c (p : ApiPlan) (inp ro io : Ptr) (st : State) : State :=
  p.pln.rdft2Apply inp (inp + realStep p.prb) ro io st

/-- `X(execute_split_dft_c2r)`, api/execute-split-dft-c2r.c:25-30 -/
def executeSplitDftC2r (p : ApiPlan) (ri ii out : Ptr) (st : State) : State :=
  p.pln.rdft2Apply out (out + realStep p.prb) ri ii st

end FFTW.Api
