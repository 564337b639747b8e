import Verif.Model.Api
import Verif.Spec.ApiR2r

/-!
# `api/plan-many-r2r.c`, `api/plan-r2r.c`, `api/plan-r2r-{1,2,3}d.c`, `api/plan-guru-r2r.h`, `api/map-r2r-kind.c`
-/

namespace FFTW.Api
open Planner RowMajor Tensor
open MapFlags (U32)
open Spec (R2rKind)

/-- `X(map_r2r_kind)`, api/map-r2r-kind.c:24-52, one kind.  Other values of the C `enum` fail an assertion (compiled out by default, and then they
mean R2HC); they are not modelled.  `R2HC` is `R2HC00`, `HC2R` is `HC2R00` (rdft/codelet-rdft.h:41-42). -/
def mapR2rKind : R2rKind → RKind
  | .FFTW_R2HC => .R2HC00
  | .FFTW_HC2R => .HC2R00
  | .FFTW_DHT => .DHT
  | .FFTW_REDFT00 => .REDFT00
  | .FFTW_REDFT01 => .REDFT01
  | .FFTW_REDFT10 => .REDFT10
  | .FFTW_REDFT11 => .REDFT11
  | .FFTW_RODFT00 => .RODFT00
  | .FFTW_RODFT01 => .RODFT01
  | .FFTW_RODFT10 => .RODFT10
  | .FFTW_RODFT11 => .RODFT11

section
variable [CLib]

/-- the problem `X(plan_many_r2r)` poses, api/plan-many-r2r.c:26-52; `a.sign` is not an argument there -/
def manyR2rProblem (a : Many) (kinds : List R2rKind) : C (Option Problem) :=
  if manyKosherp a.n a.howmany = false then some none
  else do
    let k := kinds.map mapR2rKind
    let sz ← mktensorRowmajor (a.n.zip ((a.inembed.getD a.n).zip (a.onembed.getD a.n))) a.istride a.ostride
    pure (some (mkproblemRdft ((sz.map ofIo).zip k) (some [ofIo ⟨a.howmany, a.idist, a.odist⟩]) a.inp a.out))

/-- the problem `XGURU(r2r)` poses, api/plan-guru-r2r.h:24-46 -/
def guruR2rProblem (chk : Int → C Int) (dims howmany : List IODim) (inp out : Ptr) (kinds : List R2rKind) : C (Option Problem) :=
  if guruKosherp dims howmany = false then some none
  else do
    let k := kinds.map mapR2rKind
    let sz ← mktensorIodims chk dims 1 1
    let v ← mktensorIodims chk howmany 1 1
    pure (some (mkproblemRdft (sz.zip k) (some v) inp out))

/-- `X(plan_many_r2r)`, api/plan-many-r2r.c:26-52 -/
noncomputable def planManyR2r (env : Env) (n : ℕ) (tl : ℝ) (flags : U32) (a : Many) (kinds : List R2rKind) (st : PSt) : Res (Option ApiPlan × PSt) :=
  planWith env n tl flags 0 (manyR2rProblem a kinds) st

/-- `X(plan_r2r)`, api/plan-r2r.c:23-28; `X(plan_r2r_1d)`, `X(plan_r2r_2d)`, `X(plan_r2r_3d)` (api/plan-r2r-1d.c:23-26 etc.) call it with
the lists of their sizes and kinds -/
noncomputable def planR2r (env : Env) (n : ℕ) (tl : ℝ) (flags : U32) (sizes : List Int) (inp out : Ptr) (kinds : List R2rKind) (st : PSt) :
    Res (Option ApiPlan × PSt) :=
  planManyR2r env n tl flags ⟨sizes, 1, inp, none, 1, 1, out, none, 1, 1, 0⟩ kinds st

/-- `XGURU(r2r)`, api/plan-guru-r2r.h:24-46 -/
noncomputable def planGuruR2r (chk : Int → C Int) (env : Env) (n : ℕ) (tl : ℝ) (flags : U32) (dims howmany : List IODim) (inp out : Ptr)
    (kinds : List R2rKind) (st : PSt) : Res (Option ApiPlan × PSt) :=
  planWith env n tl flags 0 (guruR2rProblem chk dims howmany inp out kinds) st

end

end FFTW.Api
