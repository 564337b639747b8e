import Verif.Model.Hc2hc
import Verif.Model.Rdft2
import Verif.Spec.Hc2c

/-!
# rdft/ct-hc2c.c and rdft/ct-hc2c-direct.c — Cooley-Tukey for real-to-complex and complex-to-real transforms

Operation counts, `X(ct_uglyp)` and the flags that only prune the search are not modelled: `taste` is any predicate.  The `okp` of the scalar
codelets accepts everything (rdft/scalar/hc2c.c:25-33), so that `extra_iter` is 0 and `apply_extra_iter` (for SIMD codelets) is not modelled.
-/

namespace FFTW.Rdft2S
open Tensor DftS RdftS Spec

/-- `apply` of a `plan_hc2c`, rdft/ct-hc2c.h:23: arguments `cr`, `ci` -/
abbrev CPlan := Ptr → Ptr → State → State

/-- `hc2c_mkinferior`, rdft/ct-hc2c.h:25-30: `kind` (`true` for R2HC, `false` for HC2R), arguments, `cr`, `ci`, `plnr` -/
abbrev CInferior := Bool → Hc2cP → Ptr → Ptr → Flags → Mk (Option CPlan)

/-- `if (!cldw) goto nada;` -/
def Mk.needC {α : Type} (w : Mk (Option CPlan)) (k : CPlan → Mk (Option α)) : Mk (Option α) :=
  w.bind fun r => match r with
    | none => .ret none
    | some c => k c

variable [CLib]

/-- rdft/ct-hc2c.c, `apply_dit` 31-43, `apply_dif` 45-57, `apply_dit_dft` 59-70, `apply_dif_dft` 72-83, `applicable0` 109-128, `hc2c_applicable`
130-144, `mkplan` 146-274; `taste` covers `NO_VRECURSEP`.  A `choose_radix` that overflows (`none`) is undefined behaviour in C; here the
solver then declines. -/
def ctHc2c (via : Hc2cKind) (rdx : ℤ) (mkcldw : CInferior) (taste : Taste) : Solver := rdft2Solver fun p fl =>
  match p.sz, p.vecsz with
  | [d], some vec =>
    match tornk1 vec, Primes.chooseRadix rdx d.n with
    | some vd, some rr =>
      if (p.kind = .R2HC ∨ (p.kind = .HC2R ∧ (p.r0 = p.cr ∨ fl.nd = false))) ∧ rr > 0 ∧ (d.n : ℤ) > rr ∧ taste (.rdft2 p) fl then
        let r := rr.toNat
        let m := d.n / r
        match p.kind with
        | .R2HC =>
          Mk.needC (mkcldw true ⟨r, m, d.os, vd.n, vd.os, p.ci - p.cr⟩ p.cr p.ci fl) fun cldw =>
          match via with
          | .viaRdft =>
            .need (mkproblemRdft [(⟨m, ((r / 2 : ℕ) : ℤ) * d.is, d.os⟩, .R2HC00)]
              (some [⟨2, p.r1 - p.r0, p.ci - p.cr⟩, ⟨r / 2, d.is, (m : ℤ) * d.os⟩, ⟨vd.n, vd.is, vd.os⟩]) p.r0 p.cr) {} fun cld =>
            .ret (some (.rdft2 fun r0 _ cr ci st => cldw cr ci (cld.rdftApply r0 cr st)))
          | .viaDft =>
            .need (mkproblemDft [⟨m, ((r / 2 : ℕ) : ℤ) * d.is, d.os⟩] (some [⟨r / 2, d.is, (m : ℤ) * d.os⟩, ⟨vd.n, vd.is, vd.os⟩])
              p.r0 p.r1 p.cr p.ci) {} fun cld =>
            .ret (some (.rdft2 fun r0 r1 cr ci st => cldw cr ci (cld.dftApply r0 r1 cr ci st)))
        | .HC2R =>
          Mk.needC (mkcldw false ⟨r, m, d.is, vd.n, vd.is, p.ci - p.cr⟩ p.cr p.ci fl) fun cldw =>
          match via with
          | .viaRdft =>
            .need (mkproblemRdft [(⟨m, d.is, ((r / 2 : ℕ) : ℤ) * d.os⟩, .HC2R00)]
              (some [⟨2, p.ci - p.cr, p.r1 - p.r0⟩, ⟨r / 2, (m : ℤ) * d.is, d.os⟩, ⟨vd.n, vd.is, vd.os⟩]) p.cr p.r0) {} fun cld =>
            .ret (some (.rdft2 fun r0 _ cr ci st => cld.rdftApply cr r0 (cldw cr ci st)))
          | .viaDft =>
            .need (mkproblemDft [⟨m, d.is, ((r / 2 : ℕ) : ℤ) * d.os⟩] (some [⟨r / 2, (m : ℤ) * d.is, d.os⟩, ⟨vd.n, vd.is, vd.os⟩])
              p.ci p.cr p.r1 p.r0) {} fun cld =>
            .ret (some (.rdft2 fun r0 r1 cr ci st => cld.dftApply ci cr r1 r0 (cldw cr ci st)))
      else .nada
    | _, _ => .nada
  | _, _ => .nada

/-! ### rdft/ct-hc2c-direct.c -/

/-- a codelet: `hc2c_desc` with its genus, and `khc2c` (rdft/codelet-rdft.h:106-134) -/
structure KHc2c where
  radix : ℕ
  fwd : Bool
  tw : Twiddle.Prog
  k : Ptr → Ptr → Ptr → Ptr → (ℕ → ℝ) → ℤ → ℕ → ℕ → ℤ → State → State

/-- `awake`, rdft/ct-hc2c-direct.c:178-187 -/
noncomputable def KHc2c.W (c : KHc2c) (cexp : ℕ → ℤ → ℝ × ℝ) (r m : ℕ) (t : ℕ) : ℝ :=
  (Twiddle.compute cexp c.tw (r * m) r ((m - 1) / 2)).getD t 0

/-- `dobatch`, rdft/ct-hc2c-direct.c:104-138, for the columns `mb .. mb+bs-1`; `extra_iter` is 0 -/
noncomputable def dobatchHc2c (W : ℕ → ℝ) (c : KHc2c) (t : Hc2cP) (Rp Ip Rm Im : Ptr) (mb bs : ℕ) (B : Ptr) (st : State) : State :=
  let b : ℤ := 4 * (batchsize t.r : ℤ)
  let rs : ℤ := (t.m : ℤ) * t.ms
  let Bm := B + (b - 2)
  let p : ℤ := (mb : ℤ) * t.ms
  let st := Copy.cpy2dPairCi (Rp + p) (Ip + p) B (B + (1 : ℤ)) (t.r / 2) rs b bs t.ms 2 st
  let st := Copy.cpy2dPairCi (Rm + -p) (Im + -p) Bm (Bm + (1 : ℤ)) (t.r / 2) rs b bs (-t.ms) (-2) st
  let st := c.k B (B + (1 : ℤ)) Bm (Bm + (1 : ℤ)) W b mb (mb + bs) 2 st
  let st := Copy.cpy2dPairCo B (B + (1 : ℤ)) (Rp + p) (Ip + p) (t.r / 2) b rs bs 2 t.ms st
  Copy.cpy2dPairCo Bm (Bm + (1 : ℤ)) (Rm + -p) (Im + -p) (t.r / 2) b rs bs (-2) (-t.ms) st

/-- rdft/ct-hc2c-direct.c, `apply` 45-60, `apply_buf` 140-173, `applicable` 217-310, `mkcldw` 312-384.  The buffer is allocated anew for every
batch (in C once for all batches): its old contents are never looked at. -/
noncomputable def hc2cDirect (cexp : ℕ → ℤ → ℝ × ℝ) (c : KHc2c) (bufferedp : Bool) (taste : Hc2cP → Flags → Bool) : CInferior := fun fwd t cr ci fl =>
  if t.r = c.radix ∧ fwd = c.fwd ∧ taste t fl then
    let rs : ℤ := (t.m : ℤ) * t.ms
    let imid : ℤ := ((t.m / 2 : ℕ) : ℤ) * t.ms
    let kind : R2Kind := if fwd then .R2HC else .HC2R
    .need (mkproblemRdft2 [⟨t.r, rs, rs⟩] (some []) cr ci cr ci kind) {} fun cld0 =>
    .need (mkproblemRdft2s (if t.m % 2 = 1 then [] else [⟨t.r, rs, rs⟩]) (some []) (cr + imid) (ci + imid) (cr + imid) (ci + imid) kind) {} fun cldm =>
    .ret (some fun cr ci =>
      forN t.v fun i st =>
        let cr := cr + (i : ℤ) * t.vs
        let ci := ci + (i : ℤ) * t.vs
        let st := cld0.rdft2Apply cr ci cr ci st
        let me := (t.m + 1) / 2
        if bufferedp then
          let st := batches (batchsize t.r) (batchsize_pos _) me (fun j bs =>
            withBuf (dobatchHc2c (c.W cexp t.r t.m) c t cr ci (cr + (t.m : ℤ) * t.ms) (ci + (t.m : ℤ) * t.ms) j bs)) 1 st
          let x : ℤ := (me : ℤ) * t.ms
          cldm.rdft2Apply (cr + x) (ci + x) (cr + x) (ci + x) st
        else
          let e : ℤ := ((t.m : ℤ) - 1) * t.ms
          let st := c.k (cr + t.ms) (ci + t.ms) (cr + e) (ci + e) (c.W cexp t.r t.m) rs 1 me t.ms st
          cldm.rdft2Apply (cr + imid) (ci + imid) (cr + imid) (ci + imid) st)
  else .ret none

end FFTW.Rdft2S
