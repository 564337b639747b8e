import Verif.Model.DftCt
import Verif.Model.Copy

/-!
# Solvers that run codelets: dft/direct.c, dft/dftw-direct.c, dft/dftw-directsq.c

A codelet is a black box with its `okp` predicate; what is required of it is `KDft.Sound`, `KDftw.Sound` in `Verif/Spec/Codelet.lean`.
Operation counts are not modelled.  `stride` objects are modelled by the stride (`X(mkstride)`, kernel/stride.c).
-/

namespace FFTW.DftS
open Tensor

/-- a codelet without twiddle factors: `kdft_desc` with its genus, and `kdft` (dft/codelet-dft.h:33-58) -/
structure KDft where
  sz : ℕ
  okp : Ptr → Ptr → Ptr → Ptr → ℤ → ℤ → ℕ → ℤ → ℤ → Flags → Bool
  k : Ptr → Ptr → Ptr → Ptr → ℤ → ℤ → ℕ → ℤ → ℤ → State → State

/-- the null pointer in calls `okp(d, 0, ((const R *)0) + 1, ...)` -/
def null : Ptr := ⟨0, 0⟩

/-- `applicable`, dft/direct.c:184-225: whether an extra iteration is needed, if applicable -/
def directApplicable (c : KDft) (p : DftP) (d vd : Dim) (fl : Flags) : Option Bool :=
  if d.n = c.sz ∧ (p.ri ≠ p.ro ∨ vd.n = 1 ∨ ∃ v, p.vecsz = some v ∧ inplaceStrides2 p.sz v = true) then
    if c.okp p.ri p.ii p.ro p.io d.is d.os vd.n vd.is vd.os fl then some false
    else if c.okp p.ri p.ii p.ro p.io d.is d.os (vd.n - 1) vd.is vd.os fl ∧ c.okp p.ri p.ii p.ro p.io d.is d.os 2 0 0 fl then some true
    else none
  else none

/-- dft/direct.c, `apply` 94-99, `apply_extra_iter` 101-116, `mkplan` 228-276 (not buffered) -/
def direct (c : KDft) : Solver := dftSolver fun p fl =>
  match p.sz, p.vecsz with
  | [d], some v =>
    match tornk1 v with
    | some vd =>
      match directApplicable c p d vd fl with
      | some false => .ret (some (.dft fun ri ii ro io st => c.k ri ii ro io d.is d.os vd.n vd.is vd.os st))
      | some true => .ret (some (.dft fun ri ii ro io st =>
          let st := c.k ri ii ro io d.is d.os (vd.n - 1) vd.is vd.os st
          let e : ℤ := (vd.n - 1 : ℕ)
          c.k (ri + e * vd.is) (ii + e * vd.is) (ro + e * vd.os) (io + e * vd.os) d.is d.os 1 0 0 st))
      | none => .nada
    | none => .nada
  | _, _ => .nada

/-- `compute_batchsize`, dft/direct.c:64-71 and dft/dftw-direct.c:92-99 -/
def batchsize (n : ℕ) : ℕ := (n + 3) / 4 * 4 + 2

/-- the loop of `apply_buf`, dft/direct.c:83-88 (`i` from 0) and dft/dftw-direct.c:113-119 (`j` from `mb`): `body` is called with the
start and the length of each batch -/
def batches (b : ℕ) (hb : 0 < b) (vl : ℕ) (body : ℕ → ℕ → State → State) (i : ℕ) (st : State) : State :=
  if i + b < vl then batches b hb vl body (i + b) (body i b st) else body i (vl - i) st
termination_by vl - i

theorem batchsize_pos (n : ℕ) : 0 < batchsize n := by unfold batchsize; omega

/-- `dobatch`, dft/direct.c:42-62; `buf` is `B` -/
def dobatch (c : KDft) (n : ℕ) (is os ivs ovs : ℤ) (ri ii ro io : Ptr) (bs : ℕ) (B : Ptr) (st : State) : State :=
  let brs : ℤ := 2 * (batchsize n : ℤ)
  let st := Copy.cpy2dPairCi ri ii B (B + (1 : ℤ)) n is brs bs ivs 2 st
  if |os| < |ovs| then c.k B (B + (1 : ℤ)) ro io brs os bs 2 ovs st
  else
    let st := c.k B (B + (1 : ℤ)) B (B + (1 : ℤ)) brs brs bs 2 2 st
    Copy.cpy2dPairCo B (B + (1 : ℤ)) ro io n brs os bs 2 ovs st

/-- `applicable_buf`, dft/direct.c:141-182 -/
def directbufApplicable (c : KDft) (p : DftP) (d vd : Dim) (fl : Flags) : Bool :=
  let b := batchsize c.sz
  decide (d.n = c.sz) && c.okp null (null + (1 : ℤ)) p.ro p.io (2 * (b : ℤ)) d.os b 2 vd.os fl
    && c.okp null (null + (1 : ℤ)) p.ro p.io (2 * (b : ℤ)) d.os (vd.n % b) 2 vd.os fl
    && (decide (p.ri ≠ p.ro) || inplaceStrides2 [d] [vd] || decide (vd.n ≤ b))

/-- dft/direct.c, `apply_buf` 73-92, `mkplan` 228-276 (buffered).  The buffer is allocated anew for each batch: see `withBuf`. -/
def directbuf (c : KDft) (taste : Taste) : Solver := dftSolver fun p fl =>
  match p.sz, p.vecsz with
  | [d], some [vd] =>
    if directbufApplicable c p d vd fl && taste (.dft p) fl then
      .ret (some (.dft fun ri ii ro io st =>
        batches (batchsize d.n) (batchsize_pos _) vd.n (fun i bs =>
          withBuf (dobatch c d.n d.is d.os vd.is vd.os (ri + (i : ℤ) * vd.is) (ii + (i : ℤ) * vd.is) (ro + (i : ℤ) * vd.os) (io + (i : ℤ) * vd.os) bs)) 0 st))
    else .nada
  | _, _ => .nada

/-! ### twiddle codelets -/

/-- a codelet with twiddle factors: `ct_desc` with its genus, and `kdftw` (dft/codelet-dft.h:61-84) -/
structure KDftw where
  radix : ℕ
  tw : Twiddle.Prog
  okp : Ptr → Ptr → ℤ → ℤ → ℕ → ℕ → ℕ → ℤ → Flags → Bool
  k : Ptr → Ptr → (ℕ → ℝ) → ℤ → ℕ → ℕ → ℤ → State → State

/-- `awake`, dft/dftw-direct.c:125-131 -/
noncomputable def KDftw.W (c : KDftw) (cexp : ℕ → ℤ → ℝ × ℝ) (r m extra : ℕ) (t : ℕ) : ℝ :=
  (Twiddle.compute cexp c.tw (r * m) r (m + extra)).getD t 0

/-- `applicable0`, dft/dftw-direct.c:155-192: whether an extra iteration is needed, if applicable -/
def dftwApplicable (c : KDftw) (t : TwP) (rio iio : Ptr) (fl : Flags) : Option Bool :=
  let me := t.mb + t.mc
  if t.r = c.radix ∧ t.irs = t.ors ∧ t.ivs = t.ovs then
    if c.okp rio iio t.irs t.ivs t.m t.mb me t.ms fl then
      if c.okp (rio + t.ivs) (iio + t.ivs) t.irs t.ivs t.m t.mb me t.ms fl then some false else none
    else if t.mb = 0 ∧ me = t.m ∧ c.okp rio iio t.irs t.ivs t.m t.mb (me - 1) t.ms fl ∧ c.okp rio iio t.irs t.ivs t.m (me - 1) (me + 1) t.ms fl then
      if c.okp (rio + t.ivs) (iio + t.ivs) t.irs t.ivs t.m t.mb (me - 1) t.ms fl then some true else none
    else none
  else none

/-- dft/dftw-direct.c, `apply` 46-56, `apply_extra_iter` 58-71, `mkcldw` 253-307 (not buffered) -/
noncomputable def dftwDirect (cexp : ℕ → ℤ → ℝ × ℝ) (c : KDftw) (taste : TwP → Flags → Bool) : Inferior := fun t rio iio fl =>
  match dftwApplicable c t rio iio fl with
  | none => .ret none
  | some extra =>
    if taste t fl then
      let me := t.mb + t.mc
      .ret (some (
        if extra then fun rio iio =>
          forN t.v fun i st =>
            let rio := rio + (i : ℤ) * t.ivs
            let iio := iio + (i : ℤ) * t.ivs
            let mm : ℕ := me - 1
            let st := c.k (rio + (t.mb : ℤ) * t.ms) (iio + (t.mb : ℤ) * t.ms) (c.W cexp t.r t.m 1) t.irs t.mb mm t.ms st
            c.k (rio + (mm : ℤ) * t.ms) (iio + (mm : ℤ) * t.ms) (c.W cexp t.r t.m 1) t.irs mm (mm + 2) 0 st
        else fun rio iio =>
          forN t.v fun i st =>
            let rio := rio + (i : ℤ) * t.ivs
            let iio := iio + (i : ℤ) * t.ivs
            c.k (rio + (t.mb : ℤ) * t.ms) (iio + (t.mb : ℤ) * t.ms) (c.W cexp t.r t.m 0) t.irs t.mb me t.ms st))
    else .ret none

/-- `dobatch`, dft/dftw-direct.c:75-88, for the columns `mb .. mb+bs-1` -/
noncomputable def dobatchW (cexp : ℕ → ℤ → ℝ × ℝ) (c : KDftw) (t : TwP) (rA iA : Ptr) (mb bs : ℕ) (B : Ptr) (st : State) : State :=
  let brs : ℤ := 2 * (batchsize t.r : ℤ)
  let rA := rA + (mb : ℤ) * t.ms
  let iA := iA + (mb : ℤ) * t.ms
  let st := Copy.cpy2dPairCi rA iA B (B + (1 : ℤ)) t.r t.irs brs bs t.ms 2 st
  let st := c.k B (B + (1 : ℤ)) (c.W cexp t.r t.m 0) brs mb (mb + bs) 2 st
  Copy.cpy2dPairCo B (B + (1 : ℤ)) rA iA t.r brs t.irs bs 2 t.ms st

/-- `applicable0_buf`, dft/dftw-direct.c:194-220 -/
def dftwbufApplicable (c : KDftw) (t : TwP) (fl : Flags) : Bool :=
  let b := batchsize t.r
  decide (t.r = c.radix ∧ t.irs = t.ors ∧ t.ivs = t.ovs) && c.okp null (null + (1 : ℤ)) (2 * (b : ℤ)) 0 t.m t.mb (t.mb + b) 2 fl
    && c.okp null (null + (1 : ℤ)) (2 * (b : ℤ)) 0 t.m t.mb (t.mb + t.mc) 2 fl

/-- dft/dftw-direct.c, `apply_buf` 101-120, `mkcldw` 253-307 (buffered) -/
noncomputable def dftwDirectbuf (cexp : ℕ → ℤ → ℝ × ℝ) (c : KDftw) (taste : TwP → Flags → Bool) : Inferior := fun t _ _ fl =>
  if dftwbufApplicable c t fl && taste t fl then
    .ret (some fun rio iio =>
      forN t.v fun i st =>
        batches (batchsize t.r) (batchsize_pos _) (t.mb + t.mc) (fun j bs =>
          withBuf (dobatchW cexp c t (rio + (i : ℤ) * t.ivs) (iio + (i : ℤ) * t.ivs) j bs)) t.mb st)
  else .ret none

/-- a square twiddle codelet: `kdftwsq` (dft/codelet-dft.h:87-90) -/
structure KDftwsq where
  radix : ℕ
  tw : Twiddle.Prog
  okp : Ptr → Ptr → ℤ → ℤ → ℕ → ℕ → ℕ → ℤ → Flags → Bool
  k : Ptr → Ptr → (ℕ → ℝ) → ℤ → ℤ → ℕ → ℕ → ℤ → State → State

/-- dft/dftw-directsq.c, `apply` 41-47, `awake` 49-55, `applicable` 74-98, `mkcldw` 100-144 -/
noncomputable def dftwDirectsq (cexp : ℕ → ℤ → ℝ × ℝ) (c : KDftwsq) : Inferior := fun t rio iio fl =>
  if t.r = c.radix ∧ t.r = t.v ∧ t.irs = t.ovs ∧ t.ivs = t.ors ∧ c.okp rio iio t.irs t.ivs t.m t.mb (t.mb + t.mc) t.ms fl then
    .ret (some fun rio iio =>
      c.k (rio + (t.mb : ℤ) * t.ms) (iio + (t.mb : ℤ) * t.ms)
        (fun i => (Twiddle.compute cexp c.tw (t.r * t.m) t.r t.m).getD i 0) t.irs t.ivs t.mb (t.mb + t.mc) t.ms)
  else .ret none

end FFTW.DftS
