import Verif.Model.ApiR2c
import Verif.Model.ApiR2r
import Verif.Model.Wisdom

/-!
# `api/f77api.c`, `api/f77funcs.h`: the Fortran 77 interface

Arguments that Fortran passes by reference are values here, the plan written to `*p` is the result, and arrays are lists whose length is the argument `rank`.  A kind is an enumerator here, not the integer that
is cast to it.  Other global state (reference counts, time limit, printing, wisdom in files) and the names the linker sees are not modelled: those wrappers pass their arguments on.
-/

namespace FFTW.F77
open Planner RowMajor Tensor Api
open MapFlags (U32)
open Spec (R2rKind)

/-- `reverse_n`, api/f77api.c:36-45: `nrev[rnk - i - 1] = n[i]` for `i = 0, …, rnk - 1`.  `acc` is what has been stored so far, the last slot first. -/
def reverseLoop : List Int → List Int → List Int
  | [], acc => acc
  | x :: l, acc => reverseLoop l (x :: acc)
@[inherit_doc reverseLoop] def reverseN (n : List Int) : List Int := reverseLoop n []

/-- `make_dims`, api/f77api.c:49-62 -/
def makeDims : List Int → List Int → List Int → List IODim
  | n :: ns, i :: is, o :: os => ⟨n, i, o⟩ :: makeDims ns is os
  | _, _, _ => []

/-- `ints2kinds`, api/f77api.c:88-102: `k[i] = ik[rnk - 1 - i]` -/
def ints2kinds (ik : List R2rKind) : List R2rKind :=
  (List.range ik.length).map fun i => (ik[ik.length - 1 - i]?).getD .FFTW_R2HC

/-- arguments of the advanced interface -/
structure FMany where
  n : List Int
  howmany : Int
  inp : Ptr
  inembed : List Int
  istride : Int
  idist : Int
  out : Ptr
  onembed : List Int
  ostride : Int
  odist : Int

/-- the call made: api/f77funcs.h:139-145, 232-238, 326-332, 428-435 -/
def FMany.toC (a : FMany) (sign : Int) : Many :=
  ⟨reverseN a.n, a.howmany, a.inp, some (reverseN a.inembed), a.istride, a.idist, a.out, some (reverseN a.onembed), a.ostride, a.odist, sign⟩

section
variable [CLib]

/-- `plan_dft`, api/f77funcs.h:104-110 -/
noncomputable def planDft (env : Env) (nt : ℕ) (tl : ℝ) (flags : U32) (n : List Int) (inp out : Ptr) (sign : Int) (st : PSt) : Res (Option ApiPlan × PSt) :=
  Api.planDft env nt tl flags (reverseN n) inp out sign st
/-- `plan_dft_1d`, api/f77funcs.h:112-116 -/
noncomputable def planDft1d (env : Env) (nt : ℕ) (tl : ℝ) (flags : U32) (n : Int) (inp out : Ptr) (sign : Int) (st : PSt) : Res (Option ApiPlan × PSt) :=
  Api.planDft env nt tl flags [n] inp out sign st
/-- `plan_dft_2d`, api/f77funcs.h:118-122 -/
noncomputable def planDft2d (env : Env) (nt : ℕ) (tl : ℝ) (flags : U32) (nx ny : Int) (inp out : Ptr) (sign : Int) (st : PSt) : Res (Option ApiPlan × PSt) :=
  Api.planDft env nt tl flags [ny, nx] inp out sign st
/-- `plan_dft_3d`, api/f77funcs.h:124-129 -/
noncomputable def planDft3d (env : Env) (nt : ℕ) (tl : ℝ) (flags : U32) (nx ny nz : Int) (inp out : Ptr) (sign : Int) (st : PSt) : Res (Option ApiPlan × PSt) :=
  Api.planDft env nt tl flags [nz, ny, nx] inp out sign st
/-- `plan_many_dft`, api/f77funcs.h:131-149 -/
noncomputable def planManyDft (env : Env) (nt : ℕ) (tl : ℝ) (flags : U32) (a : FMany) (sign : Int) (st : PSt) : Res (Option ApiPlan × PSt) :=
  Api.planManyDft env nt tl flags (a.toC sign) st
/-- `plan_guru_dft`, api/f77funcs.h:151-163 -/
noncomputable def planGuruDft (env : Env) (nt : ℕ) (tl : ℝ) (flags : U32) (n is os hn his hos : List Int) (inp out : Ptr) (sign : Int) (st : PSt) :
    Res (Option ApiPlan × PSt) :=
  Api.planGuruDft int32 env nt tl flags (makeDims n is os) (makeDims hn his hos) inp out sign st
/-- `plan_guru_split_dft`, api/f77funcs.h:165-177 -/
noncomputable def planGuruSplitDft (env : Env) (nt : ℕ) (tl : ℝ) (flags : U32) (n is os hn his hos : List Int) (ri ii ro io : Ptr) (st : PSt) :
    Res (Option ApiPlan × PSt) :=
  Api.planGuruSplitDft int32 env nt tl flags (makeDims n is os) (makeDims hn his hos) ri ii ro io st

/-- `plan_dft_r2c`, api/f77funcs.h:197-203 -/
noncomputable def planDftR2c (env : Env) (nt : ℕ) (tl : ℝ) (flags : U32) (n : List Int) (inp out : Ptr) (st : PSt) : Res (Option ApiPlan × PSt) :=
  Api.planDftR2c env nt tl flags (reverseN n) inp out st
/-- `plan_dft_r2c_1d`, api/f77funcs.h:205-209 -/
noncomputable def planDftR2c1d (env : Env) (nt : ℕ) (tl : ℝ) (flags : U32) (n : Int) (inp out : Ptr) (st : PSt) : Res (Option ApiPlan × PSt) :=
  Api.planDftR2c env nt tl flags [n] inp out st
/-- `plan_dft_r2c_2d`, api/f77funcs.h:211-215 -/
noncomputable def planDftR2c2d (env : Env) (nt : ℕ) (tl : ℝ) (flags : U32) (nx ny : Int) (inp out : Ptr) (st : PSt) : Res (Option ApiPlan × PSt) :=
  Api.planDftR2c env nt tl flags [ny, nx] inp out st
/-- `plan_dft_r2c_3d`, api/f77funcs.h:217-223 -/
noncomputable def planDftR2c3d (env : Env) (nt : ℕ) (tl : ℝ) (flags : U32) (nx ny nz : Int) (inp out : Ptr) (st : PSt) : Res (Option ApiPlan × PSt) :=
  Api.planDftR2c env nt tl flags [nz, ny, nx] inp out st
/-- `plan_many_dft_r2c`, api/f77funcs.h:225-242 -/
noncomputable def planManyR2c (env : Env) (nt : ℕ) (tl : ℝ) (flags : U32) (a : FMany) (st : PSt) : Res (Option ApiPlan × PSt) :=
  Api.planManyR2c env nt tl flags (a.toC 0) st

/-- `plan_guru_dft_r2c`, api/f77funcs.h:244-257 -/
noncomputable def planGuruR2c (env : Env) (nt : ℕ) (tl : ℝ) (flags : U32) (n is os hn his hos : List Int) (inp out : Ptr) (st : PSt) : Res (Option ApiPlan × PSt) :=
  Api.planGuruR2c int32 env nt tl flags (makeDims n is os) (makeDims hn his hos) inp out st
/-- `plan_guru_split_dft_r2c`, api/f77funcs.h:259-272 -/
noncomputable def planGuruSplitR2c (env : Env) (nt : ℕ) (tl : ℝ) (flags : U32) (n is os hn his hos : List Int) (inp ro io : Ptr) (st : PSt) : Res (Option ApiPlan × PSt) :=
  Api.planGuruSplitR2c int32 env nt tl flags (makeDims n is os) (makeDims hn his hos) inp ro io st

/-- `plan_dft_c2r`, api/f77funcs.h:291-297 -/
noncomputable def planDftC2r (env : Env) (nt : ℕ) (tl : ℝ) (flags : U32) (n : List Int) (inp out : Ptr) (st : PSt) : Res (Option ApiPlan × PSt) :=
  Api.planDftC2r env nt tl flags (reverseN n) inp out st
/-- `plan_dft_c2r_1d`, api/f77funcs.h:299-303 -/
noncomputable def planDftC2r1d (env : Env) (nt : ℕ) (tl : ℝ) (flags : U32) (n : Int) (inp out : Ptr) (st : PSt) : Res (Option ApiPlan × PSt) :=
  Api.planDftC2r env nt tl flags [n] inp out st
/-- `plan_dft_c2r_2d`, api/f77funcs.h:305-309 -/
noncomputable def planDftC2r2d (env : Env) (nt : ℕ) (tl : ℝ) (flags : U32) (nx ny : Int) (inp out : Ptr) (st : PSt) : Res (Option ApiPlan × PSt) :=
  Api.planDftC2r env nt tl flags [ny, nx] inp out st
/-- `plan_dft_c2r_3d`, api/f77funcs.h:311-317 -/
noncomputable def planDftC2r3d (env : Env) (nt : ℕ) (tl : ℝ) (flags : U32) (nx ny nz : Int) (inp out : Ptr) (st : PSt) : Res (Option ApiPlan × PSt) :=
  Api.planDftC2r env nt tl flags [nz, ny, nx] inp out st
/-- `plan_many_dft_c2r`, api/f77funcs.h:319-336 -/
noncomputable def planManyC2r (env : Env) (nt : ℕ) (tl : ℝ) (flags : U32) (a : FMany) (st : PSt) : Res (Option ApiPlan × PSt) :=
  Api.planManyC2r env nt tl flags (a.toC 0) st

/-- `plan_guru_dft_c2r`, api/f77funcs.h:338-351 -/
noncomputable def planGuruC2r (env : Env) (nt : ℕ) (tl : ℝ) (flags : U32) (n is os hn his hos : List Int) (inp out : Ptr) (st : PSt) : Res (Option ApiPlan × PSt) :=
  Api.planGuruC2r int32 env nt tl flags (makeDims n is os) (makeDims hn his hos) inp out st
/-- `plan_guru_split_dft_c2r`, api/f77funcs.h:353-366 -/
noncomputable def planGuruSplitC2r (env : Env) (nt : ℕ) (tl : ℝ) (flags : U32) (n is os hn his hos : List Int) (ri ii out : Ptr) (st : PSt) : Res (Option ApiPlan × PSt) :=
  Api.planGuruSplitC2r int32 env nt tl flags (makeDims n is os) (makeDims hn his hos) ri ii out st

/-- `plan_r2r`, api/f77funcs.h:385-394 -/
noncomputable def planR2r (env : Env) (nt : ℕ) (tl : ℝ) (flags : U32) (n : List Int) (inp out : Ptr) (kind : List R2rKind) (st : PSt) : Res (Option ApiPlan × PSt) :=
  Api.planR2r env nt tl flags (reverseN n) inp out (ints2kinds kind) st
/-- `plan_r2r_1d`, api/f77funcs.h:396-400 -/
noncomputable def planR2r1d (env : Env) (nt : ℕ) (tl : ℝ) (flags : U32) (n : Int) (inp out : Ptr) (kind : R2rKind) (st : PSt) : Res (Option ApiPlan × PSt) :=
  Api.planR2r env nt tl flags [n] inp out [kind] st
/-- `plan_r2r_2d`, api/f77funcs.h:402-408 -/
noncomputable def planR2r2d (env : Env) (nt : ℕ) (tl : ℝ) (flags : U32) (nx ny : Int) (inp out : Ptr) (kindx kindy : R2rKind) (st : PSt) : Res (Option ApiPlan × PSt) :=
  Api.planR2r env nt tl flags [ny, nx] inp out [kindy, kindx] st
/-- `plan_r2r_3d`, api/f77funcs.h:410-419 -/
noncomputable def planR2r3d (env : Env) (nt : ℕ) (tl : ℝ) (flags : U32) (nx ny nz : Int) (inp out : Ptr) (kindx kindy kindz : R2rKind) (st : PSt) :
    Res (Option ApiPlan × PSt) :=
  Api.planR2r env nt tl flags [nz, ny, nx] inp out [kindz, kindy, kindx] st
/-- `plan_many_r2r`, api/f77funcs.h:421-440 -/
noncomputable def planManyR2r (env : Env) (nt : ℕ) (tl : ℝ) (flags : U32) (a : FMany) (kind : List R2rKind) (st : PSt) : Res (Option ApiPlan × PSt) :=
  Api.planManyR2r env nt tl flags (a.toC 0) (ints2kinds kind) st
/-- `plan_guru_r2r`, api/f77funcs.h:442-457: the dimensions stay as they are, the kinds are reversed -/
noncomputable def planGuruR2r (env : Env) (nt : ℕ) (tl : ℝ) (flags : U32) (n is os hn his hos : List Int) (inp out : Ptr) (kind : List R2rKind) (st : PSt) :
    Res (Option ApiPlan × PSt) :=
  Api.planGuruR2r int32 env nt tl flags (makeDims n is os) (makeDims hn his hos) inp out (ints2kinds kind) st

end

/-- `execute`, api/f77funcs.h:26-30 -/
def execute (p : ApiPlan) (st : State) : State := Api.execute p st

/-- `execute_dft`, api/f77funcs.h:179-186 -/
def executeDft (p : ApiPlan) (inp out : Ptr) (st : State) : State :=
  if p.sign = FFT_SIGN then p.pln.dftApply (inp + (0 : ℤ)) (inp + (1 : ℤ)) (out + (0 : ℤ)) (out + (1 : ℤ)) st
  else p.pln.dftApply (inp + (1 : ℤ)) (inp + (0 : ℤ)) (out + (1 : ℤ)) (out + (0 : ℤ)) st

/-- `execute_dft_r2c`, api/f77funcs.h:274-279 -/
def executeDftR2c (p : ApiPlan) (inp out : Ptr) (st : State) : State :=
  p.pln.rdft2Apply inp (inp + realStep p.prb) (out + (0 : ℤ)) (out + (1 : ℤ)) st

/-- `execute_dft_c2r`, api/f77funcs.h:368-373 -/
def executeDftC2r (p : ApiPlan) (inp out : Ptr) (st : State) : State :=
  p.pln.rdft2Apply out (out + realStep p.prb) (inp + (0 : ℤ)) (inp + (1 : ℤ)) st

/-- `execute_split_dft`, api/f77funcs.h:188-193 -/
def executeSplitDft (p : ApiPlan) (ri ii ro io : Ptr) (st : State) : State := p.pln.dftApply ri ii ro io st

/-- `execute_split_dft_r2c`, api/f77funcs.h:281-287 -/
def executeSplitDftR2c (p : ApiPlan) (inp ro io : Ptr) (st : State) : State := p.pln.rdft2Apply inp (inp + realStep p.prb) ro io st

/-- `execute_split_dft_c2r`, api/f77funcs.h:375-381 -/
def executeSplitDftC2r (p : ApiPlan) (ri ii out : Ptr) (st : State) : State := p.pln.rdft2Apply out (out + realStep p.prb) ri ii st

/-- `execute_r2r`, api/f77funcs.h:459-463 -/
def executeR2r (p : ApiPlan) (inp out : Ptr) (st : State) : State := p.pln.rdftApply inp out st

/-- `export_wisdom`, api/f77funcs.h:52-59, with `write_char`, api/f77api.c:69-73: the Fortran routine `write` gets the characters one by one, together with its own data -/
def exportWisdom {D : Type} (env : Env) (st : PSt) (write : Int → D → D) (data : D) : Option D :=
  (exprt env st).map fun text => text.foldl (fun d c => write c d) data

/-- `read_char`, api/f77api.c:80-86 -/
def readChar (c : Int) : Int := if c < 0 then Scan.EOF else c

/-- `import_wisdom`, api/f77funcs.h:61-69: `codes` is what the Fortran routine returns in its first argument, call after call, until it returns negative numbers for ever; the result is `isuccess` -/
def importWisdom (env : Env) (st : PSt) (codes : List Int) : Option (Res (Bool × PSt)) := imprt env st (Scan.mkScanner (codes.map readChar))

end FFTW.F77
