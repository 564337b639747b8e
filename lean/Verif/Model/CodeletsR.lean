import Verif.Model.Codelets
import Verif.Model.Rdft2
import Verif.Model.RdftSolvers

/-!
# Solvers that run real codelets: rdft/direct-r2c.c, rdft/direct2.c

A codelet is a black box; what is required of it is `KR2c.Sound` in `Verif/Spec/CodeletR.lean`.  Operation counts are not modelled.
`stride` objects are modelled by the stride (`X(mkstride)`, kernel/stride.c).
-/

namespace FFTW.RdftS
open Tensor DftS

variable [CLib]

/-- a real codelet: `kr2c_desc` with its genus, and `kr2c` (rdft/codelet-rdft.h:60-86).  `k R0 R1 Cr Ci rs csr csi vl ivs ovs` -/
structure KR2c where
  n : ℕ
  kind : RKind
  k : Ptr → Ptr → Ptr → Ptr → ℤ → ℤ → ℤ → ℕ → ℤ → ℤ → State → State

/-- `R2HC_KINDP`, rdft/codelet-rdft.h:47 -/
def r2hcKindp : RKind → Bool
  | .R2HC00 | .R2HC01 | .R2HC10 | .R2HC11 => true
  | _ => false

/-- `ioffset`, rdft/direct-r2c.c:194-197 -/
def ioffset (kind : RKind) (sz : ℕ) (s : ℤ) : ℤ := s * (if kind = .R2HC00 ∨ kind = .HC2R00 then (sz : ℤ) else (sz : ℤ) - 1)

/-- `applicable`, rdft/direct-r2c.c:199-229 -/
def directRApplicable (c : KR2c) (p : RdftP) (d : Dim) (kind : RKind) (v : List Dim) (vd : Dim) : Bool :=
  decide (d.n = c.n) && decide (kind = c.kind) && (decide (p.I ≠ p.O) || decide (vd.n = 1) || inplaceStrides2 [d] v)

/-- rdft/direct-r2c.c, `apply_r2hc` 46-53, `apply_hc2r` 55-62, `mkplan` 265-328 (not buffered) -/
def directR (c : KR2c) : Solver := rdftSolver fun p _ =>
  match p.sz, p.vecsz with
  | [(d, kind)], some v =>
    match tornk1 v with
    | some vd =>
      if directRApplicable c p d kind v vd then
        .ret (some (.rdft
          (if r2hcKindp kind then fun I O => c.k I (I + d.is) O (O + ioffset kind d.n d.os) (2 * d.is) d.os (-d.os) vd.n vd.is vd.os
          else fun I O => c.k O (O + d.os) I (I + ioffset kind d.n d.is) (2 * d.os) d.is (-d.is) vd.n vd.is vd.os)))
      else .nada
    | none => .nada
  | _, _ => .nada

/-- `dobatch_r2hc`, rdft/direct-r2c.c:78-103 -/
def dobatchR2hc (c : KR2c) (kind : RKind) (n : ℕ) (rs cs ivs ovs : ℤ) (I O : Ptr) (bs : ℕ) (B : Ptr) (st : State) : State :=
  let b : ℤ := batchsize n
  let st := Copy.cpy2dCi I B n rs b bs ivs 1 1 st
  if |cs| < |ovs| then c.k B (B + b) O (O + ioffset kind n cs) (2 * b) cs (-cs) bs 1 ovs st
  else
    let st := c.k B (B + b) B (B + ioffset kind n b) (2 * b) b (-b) bs 1 1 st
    Copy.cpy2dCo B O n b cs bs 1 ovs 1 st

/-- `dobatch_hc2r`, rdft/direct-r2c.c:105-127 -/
def dobatchHc2r (c : KR2c) (kind : RKind) (n : ℕ) (rs cs ivs ovs : ℤ) (I O : Ptr) (bs : ℕ) (B : Ptr) (st : State) : State :=
  let b : ℤ := batchsize n
  let st :=
    if |cs| < |ivs| then c.k B (B + b) I (I + ioffset kind n cs) (2 * b) cs (-cs) bs ivs 1 st
    else
      let st := Copy.cpy2dCi I B n cs b bs ivs 1 1 st
      c.k B (B + b) B (B + ioffset kind n b) (2 * b) b (-b) bs 1 1 st
  Copy.cpy2dCo B O n b rs bs 1 ovs 1 st

/-- `applicable_buf`, rdft/direct-r2c.c:231-263 -/
def directbufRApplicable (c : KR2c) (p : RdftP) (d : Dim) (kind : RKind) (v : List Dim) (vd : Dim) : Bool :=
  decide (d.n = c.n) && decide (kind = c.kind) && (decide (p.I ≠ p.O) || inplaceStrides2 [d] v || decide (vd.n ≤ batchsize c.n))

/-- rdft/direct-r2c.c, `iterate` 129-152, `apply_buf_r2hc`, `apply_buf_hc2r` 154-162, `mkplan` 265-328 (buffered).  The buffer is allocated anew
for each batch: see `withBuf`. -/
def directbufR (c : KR2c) : Solver := rdftSolver fun p _ =>
  match p.sz, p.vecsz with
  | [(d, kind)], some v =>
    match tornk1 v with
    | some vd =>
      if directbufRApplicable c p d kind v vd then
        .ret (some (.rdft fun I O st =>
          batches (batchsize d.n) (batchsize_pos _) vd.n (fun i bs =>
            withBuf
              (if r2hcKindp kind then dobatchR2hc c kind d.n d.is d.os vd.is vd.os (I + (i : ℤ) * vd.is) (O + (i : ℤ) * vd.os) bs
              else dobatchHc2r c kind d.n d.os d.is vd.is vd.os (I + (i : ℤ) * vd.is) (O + (i : ℤ) * vd.os) bs)) 0 st))
      else .nada
    | none => .nada
  | _, _ => .nada

end FFTW.RdftS

namespace FFTW.Rdft2S
open Tensor DftS RdftS

variable [CLib]

/-- the kinds `R2HCII` and `HC2RIII` (rdft/codelet-rdft.h:48-51) -/
def toRKindS : Spec.R2Kind → RKind
  | .R2HC => .R2HC01
  | .HC2R => .HC2R10

/-- rdft/direct2.c, `apply` 42-49, `apply_r2hc` 51-61, `applicable` 81-116, `mkplan` 118-161 -/
def direct2 (c : KR2c) : Solver :=
  orShifted
    (rdft2Solver fun p _ =>
      match p.sz, p.vecsz with
      | [d], some v =>
        match tornk1 v with
        | some vd =>
          if d.n = c.n ∧ toRKind p.kind = c.kind ∧ (p.r0 ≠ p.cr ∨ v.length = 0 ∨ inplaceStridesR2 p none = true) then
            let rs := rstride p.kind d
            let cs := cstride p.kind d
            let ilast : ℤ := if d.n % 2 = 1 then 0 else ((d.n / 2 : ℕ) : ℤ) * d.os
            .ret (some (.rdft2
              (if p.kind = .R2HC then fun r0 r1 cr ci st =>
                let st := c.k r0 r1 cr ci rs cs cs vd.n vd.is vd.os st
                forN vd.n (fun i st =>
                  let ci := ci + (i : ℤ) * vd.os
                  (st.set (ci + ilast) 0).set ci 0) st
              else fun r0 r1 cr ci => c.k r0 r1 cr ci rs cs cs vd.n vd.is vd.os)))
          else .nada
        | none => .nada
      | _, _ => .nada)
    (fun p _ =>
      match p.sz, p.vecsz with
      | [d], some v =>
        match tornk1 v with
        | some vd =>
          if d.n = c.n ∧ toRKindS p.kind = c.kind ∧ (p.r0 ≠ p.cr ∨ v.length = 0 ∨ inplaceStridesR2 p none = true) then
            let rs := rstride p.kind d
            let cs := cstride p.kind d
            .ret (some (.rdft2 fun r0 r1 cr ci => c.k r0 r1 cr ci rs cs cs vd.n vd.is vd.os))
          else .nada
        | none => .nada
      | _, _ => .nada)

end FFTW.Rdft2S
