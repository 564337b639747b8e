import Verif.Model.Buffered
import Verif.Model.Copy

/-!
# dft/dftw-genericbuf.c
-/

namespace FFTW.DftS
open Tensor

variable [CLib]

/-- `rotate` of a trigonometric generator (kernel/trig.c:110-132 and 161-167 with `FFT_SIGN = -1`) over its `cexp`; modelled in full in
Model/Trig.lean (`rotateSqrtn`, `rotateGeneric`) -/
def trigRotate (cexp : ℕ → ℤ → ℝ × ℝ) (n : ℕ) (m : ℤ) (xr xi : ℝ) : ℝ × ℝ :=
  let w := cexp n m
  (xr * w.1 + xi * w.2, xi * w.1 - xr * w.2)

/-- `BATCHDIST`, dft/dftw-genericbuf.c:42 -/
def batchdist (r : ℕ) : ℕ := r + 16

/-- `bytwiddle`, dft/dftw-genericbuf.c:45-58 -/
def bytwBuf (cexp : ℕ → ℤ → ℝ × ℝ) (t : TwP) (mb me : ℕ) (buf rio iio : Ptr) (st : State) : State :=
  forN t.r (fun j st => forN (me - mb) (fun k0 st =>
    let k := mb + k0
    let o : ℤ := (j : ℤ) * t.irs + (k : ℤ) * t.ms
    let y := trigRotate cexp (t.r * t.m) ((j * k : ℕ) : ℤ) (st.mem (rio + o)) (st.mem (iio + o))
    let b : ℤ := (j : ℤ) * 2 + 2 * (batchdist t.r : ℤ) * ((k - mb : ℕ) : ℤ)
    (st.set (buf + b) y.1).set (buf + (b + 1)) y.2) st) st

/-- `dobatch`, dft/dftw-genericbuf.c:89-102 -/
def dobatchGB (cexp : ℕ → ℤ → ℝ × ℝ) (t : TwP) (cld : Plan) (mb me : ℕ) (rio iio buf : Ptr) (st : State) : State :=
  let st := bytwBuf cexp t mb me buf rio iio st
  let st := cld.dftApply buf (buf + (1 : ℤ)) buf (buf + (1 : ℤ)) st
  Copy.cpy2dPairCo buf (buf + (1 : ℤ)) (rio + t.ms * (mb : ℤ)) (iio + t.ms * (mb : ℤ)) (me - mb) (2 * (batchdist t.r : ℤ)) t.ms t.r 2 t.irs st

/-- `for (m = mb; m < me; m += b) body(m)` -/
def stepLoop (b me : ℕ) (body : ℕ → State → State) (m : ℕ) (st : State) : State :=
  if h : 0 < b ∧ m < me then stepLoop b me body (m + b) (body m st) else st
termination_by me - m

/-- dft/dftw-genericbuf.c: `applicable0` 60-74, `applicable` 76-88 (`taste` covers `NO_UGLYP`), `apply` 104-118, `mkcldw` 154-208;
`batchsz` is that of the solver.  Decimation in time only (`regsolver`, 210-223). -/
def dftwGenericbuf (cexp : ℕ → ℤ → ℝ × ℝ) (batchsz : ℕ) (taste : TwP → Flags → Bool) : Inferior := fun t rio iio fl =>
  if t.v = 1 ∧ t.irs = t.ors ∧ t.mc ≥ batchsz ∧ t.mc % batchsz = 0 ∧ t.r ≥ 64 ∧ t.m ≥ t.r ∧ taste t fl then
    let buf := planBuf [rio, iio]
    let bd : ℤ := 2 * (batchdist t.r : ℤ)
    .need (mkproblemDft [⟨t.r, 2, 2⟩] (some [⟨batchsz, bd, bd⟩]) buf (buf + (1 : ℤ)) buf (buf + (1 : ℤ))) {} fun cld =>
    .ret (some fun rio iio =>
      stepLoop batchsz (t.mb + t.mc) (fun m => withBuf (dobatchGB cexp t cld m (m + batchsz) rio iio)) t.mb)
  else .ret none

end FFTW.DftS
