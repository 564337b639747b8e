import Verif.Model.Codelets
import Verif.Model.RdftSolvers
import Verif.Spec.HcStep

/-!
# rdft/hc2hc.c, rdft/hc2hc-generic.c and rdft/hc2hc-direct.c — Cooley-Tukey for halfcomplex transforms

Operation counts, `X(ct_uglyp)` and the flags that only prune the search are not modelled: `taste` is any predicate.
-/

namespace FFTW.RdftS
open Tensor DftS

/-- `apply` of a `plan_hc2hc`, rdft/hc2hc.h:23 -/
abbrev HPlan := Ptr → State → State

/-- `hc2hc_mkinferior`, rdft/hc2hc.h:25-28: `kind` (`true` for R2HC, `false` for HC2R), arguments, `IO`, `plnr` -/
abbrev HInferior := Bool → HcP → Ptr → Flags → Mk (Option HPlan)

/-- `if (!cldw) goto nada;` -/
def Mk.needH {α : Type} (w : Mk (Option HPlan)) (k : HPlan → Mk (Option α)) : Mk (Option α) :=
  w.bind fun r => match r with
    | none => .ret none
    | some c => k c

variable [CLib]

/-- rdft/hc2hc.c, `apply_dit` 33-43, `apply_dif` 45-55, `applicable0` 81-101, `X(hc2hc_applicable)` 103-116, `mkplan` 118-193; `taste` covers
`NO_VRECURSEP` and `NO_NONTHREADEDP`.  A `choose_radix` that overflows (`none`) is undefined behaviour in C; here the solver then declines.
`fm`: as in `ctWith`. -/
def hc2hcWith (fm : Flags → FMod) (rdx : ℤ) (mkcldw : HInferior) (taste : Taste) : Solver := rdftSolver fun p fl =>
  match p.sz, p.vecsz with
  | [(d, kind)], some vec =>
    match tornk1 vec, Primes.chooseRadix rdx d.n with
    | some vd, some rr =>
      if (kind = .R2HC00 ∨ (kind = .HC2R00 ∧ (p.I = p.O ∨ fl.nd = false))) ∧ rr > 0 ∧ (d.n : ℤ) > rr ∧ taste (.rdft p) fl then
        let r := rr.toNat
        let m := d.n / r
        if kind = .R2HC00 then
          Mk.needH (mkcldw true ⟨r, m, d.os, vd.n, vd.os, 0, (m + 2) / 2⟩ p.O fl) fun cldw =>
          .need (mkproblemRdft [(⟨m, (r : ℤ) * d.is, d.os⟩, kind)] (some [⟨r, d.is, (m : ℤ) * d.os⟩, ⟨vd.n, vd.is, vd.os⟩]) p.I p.O) (fm fl) fun cld =>
          .ret (some (.rdft fun I O st => cldw O (cld.rdftApply I O st)))
        else
          Mk.needH (mkcldw false ⟨r, m, d.is, vd.n, vd.is, 0, (m + 2) / 2⟩ p.I fl) fun cldw =>
          .need (mkproblemRdft [(⟨m, d.is, (r : ℤ) * d.os⟩, kind)] (some [⟨r, (m : ℤ) * d.is, d.os⟩, ⟨vd.n, vd.is, vd.os⟩]) p.I p.O) (fm fl) fun cld =>
          .ret (some (.rdft fun I O st => cld.rdftApply I O (cldw I st)))
      else .nada
    | _, _ => .nada
  | _, _ => .nada

/-- rdft/hc2hc.c -/
def hc2hc (rdx : ℤ) (mkcldw : HInferior) (taste : Taste) : Solver := hc2hcWith (fun _ => {}) rdx mkcldw taste

/-- `kind` of a child -/
def hcKind (fwd : Bool) : RKind := if fwd then .R2HC00 else .HC2R00
/-- `kind == R2HC ? R2HCII : HC2RIII`, rdft/hc2hc-direct.c:229 -/
def hcKindMid (fwd : Bool) : RKind := if fwd then .R2HC01 else .HC2R10

/-! ### rdft/hc2hc-generic.c -/

/-- the table of `mktwiddle`, rdft/hc2hc-generic.c:39-47 ("R and M are swapped") -/
noncomputable def hcW (cexp : ℕ → ℤ → ℝ × ℝ) (r m : ℕ) (t : ℕ) : ℝ := (Twiddle.compute cexp ⟨[⟨.half, 0, 0⟩], 1⟩ (r * m) m r).getD t 0

/-- body of the innermost loop of `bytwiddle`, rdft/hc2hc-generic.c:69-77 -/
def hcBytw1 (wr wi : ℝ) (pr pi : Ptr) (st : State) : State :=
  let xr := st.mem pr
  let xi := st.mem pi
  (st.set pr (xr * wr - xi * wi)).set pi (xi * wr + xr * wi)

/-- `bytwiddle`, rdft/hc2hc-generic.c:49-82 -/
def hcBytwiddle (W : ℕ → ℝ) (t : HcP) (mstart1 mcount1 : ℕ) (sign : ℝ) (IO : Ptr) (st : State) : State :=
  let ms : ℤ := (t.m : ℤ) * t.s
  let wrem := 2 * ((t.m - 1) / 2 - mcount1)
  forN t.v (fun i st =>
    let IO := IO + (i : ℤ) * t.vs
    forN (t.r - 1) (fun k0 st =>
      let k : ℤ := (k0 : ℤ) + 1
      let pr := IO + ((mstart1 : ℤ) * t.s + k * ms)
      let pi := IO + (- (mstart1 : ℤ) * t.s + (k + 1) * ms)
      forN mcount1 (fun j st =>
        let w := (t.m - 1) + 2 * (mstart1 - 1) + k0 * (2 * mcount1 + wrem) + 2 * j
        hcBytw1 (W w) (sign * W (w + 1)) (pr + (j : ℤ) * t.s) (pi + (- (j : ℤ) * t.s)) st) st) st) st

/-- `swapri`, rdft/hc2hc-generic.c:84-101; `(r + 1) / 2` is the number of `k` with `k + k < r` -/
def swapri (r m : ℕ) (s : ℤ) (jstart jend : ℕ) (IO : Ptr) (st : State) : State :=
  let ms : ℤ := (m : ℤ) * s
  let js : ℤ := (jstart : ℤ) * s
  forN ((r + 1) / 2) (fun k st =>
    let pr : Ptr := IO + (((k : ℤ) + 1) * ms - js : ℤ)
    let pi : Ptr := IO + (((r : ℤ) - (k : ℤ)) * ms - js : ℤ)
    forN (jend - jstart) (fun j st =>
      let pr := pr + (- (j : ℤ) * s)
      let pi := pi + (- (j : ℤ) * s)
      let t := st.mem pr
      let u := st.mem pi
      (st.set pr u).set pi t) st) st

/-- body of the innermost loop of `reorder_dit`, rdft/hc2hc-generic.c:116-124: `a = p0[j*s]`, `b = p1[ms - j*s]`, `c = p1[j*s]`, `d = p0[ms - j*s]` -/
def reorderDit1 (a b c d : Ptr) (st : State) : State :=
  let rp := st.mem a
  let im := st.mem b
  let rm := st.mem c
  let ip := st.mem d
  (((st.set a (rp - im)).set b (rp + im)).set c (rm - ip)).set d (ip + rm)

/-- body of the innermost loop of `reorder_dif`, rdft/hc2hc-generic.c:149-157 -/
noncomputable def reorderDif1 (a b c d : Ptr) (st : State) : State :=
  let half : ℝ := 1 / 2
  let rp := half * st.mem a
  let im := half * st.mem b
  let rm := half * st.mem c
  let ip := half * st.mem d
  (((st.set a (rp + im)).set b (im - rp)).set c (rm + ip)).set d (ip - rm)

/-- the loops over `k` and `j` of `reorder_dit` and `reorder_dif`; `(r - 1) / 2` is the number of `k >= 1` with `k + k < r` -/
def reorderLoop (body : Ptr → Ptr → Ptr → Ptr → State → State) (r m : ℕ) (s : ℤ) (mstart1 mend1 : ℕ) (IO : Ptr) (st : State) : State :=
  let ms : ℤ := (m : ℤ) * s
  forN ((r - 1) / 2) (fun k0 st =>
    let k : ℤ := (k0 : ℤ) + 1
    let p0 := IO + k * ms
    let p1 := IO + ((r : ℤ) - k) * ms
    forN (mend1 - mstart1) (fun j0 st =>
      let j : ℤ := ((mstart1 + j0 : ℕ) : ℤ)
      body (p0 + j * s) (p1 + (ms - j * s)) (p1 + j * s) (p0 + (ms - j * s)) st) st) st

/-- `reorder_dit`, rdft/hc2hc-generic.c:103-129 -/
def reorderDit (t : HcP) (mstart1 mcount1 : ℕ) (IO : Ptr) (st : State) : State :=
  forN t.v (fun i st =>
    let IO := IO + (i : ℤ) * t.vs
    swapri t.r t.m t.s mstart1 (mstart1 + mcount1) IO (reorderLoop reorderDit1 t.r t.m t.s mstart1 (mstart1 + mcount1) IO st)) st

/-- `reorder_dif`, rdft/hc2hc-generic.c:131-161 -/
noncomputable def reorderDif (t : HcP) (mstart1 mcount1 : ℕ) (IO : Ptr) (st : State) : State :=
  forN t.v (fun i st =>
    let IO := IO + (i : ℤ) * t.vs
    reorderLoop reorderDif1 t.r t.m t.s mstart1 (mstart1 + mcount1) IO (swapri t.r t.m t.s mstart1 (mstart1 + mcount1) IO st)) st

/-- rdft/hc2hc-generic.c, `applicable` 163-171, `apply_dit` 175-191, `apply_dif` 193-209, `mkcldw` 237-307 -/
noncomputable def hc2hcGeneric (cexp : ℕ → ℤ → ℝ × ℝ) (taste : HcP → Flags → Bool) : HInferior := fun fwd t IO fl =>
  if t.m % 2 = 1 ∧ t.r % 2 = 1 ∧ taste t fl then
    let z := if t.mb = 0 then 1 else 0
    let mstart1 := t.mb + z
    let mcount1 := t.mc - z
    let mstride : ℤ := (t.m : ℤ) - ((t.mb : ℤ) + (t.mc : ℤ) - 1) - (mstart1 : ℤ)
    let rs : ℤ := (t.m : ℤ) * t.s
    let start : ℤ := (mstart1 : ℤ) * t.s
    .need (mkproblemRdft (if t.mb = 0 then [(⟨t.r, rs, rs⟩, hcKind fwd)] else []) (some [⟨t.v, t.vs, t.vs⟩]) IO IO) {} fun cld0 =>
    .need (mkproblemRdft [(⟨t.r, rs, rs⟩, hcKind fwd)] (some [⟨2, mstride * t.s, mstride * t.s⟩, ⟨mcount1, t.s, t.s⟩, ⟨t.v, t.vs, t.vs⟩])
      (IO + start) (IO + start)) {} fun cld =>
    .ret (some (if fwd then
      fun IO st =>
        let st := hcBytwiddle (hcW cexp t.r t.m) t mstart1 mcount1 (-1) IO st
        let st := cld0.rdftApply IO IO st
        let st := cld.rdftApply (IO + start) (IO + start) st
        reorderDit t mstart1 mcount1 IO st
    else
      fun IO st =>
        let st := reorderDif t mstart1 mcount1 IO st
        let st := cld0.rdftApply IO IO st
        let st := cld.rdftApply (IO + start) (IO + start) st
        hcBytwiddle (hcW cexp t.r t.m) t mstart1 mcount1 1 IO st))
  else .ret none

/-! ### rdft/hc2hc-direct.c -/

/-- a codelet: `hc2hc_desc` with its genus, and `khc2hc` (rdft/codelet-rdft.h:96-120) -/
structure KHc2hc where
  radix : ℕ
  fwd : Bool
  tw : Twiddle.Prog
  k : Ptr → Ptr → (ℕ → ℝ) → ℤ → ℕ → ℕ → ℤ → State → State

/-- `awake`, rdft/hc2hc-direct.c:127-135 -/
noncomputable def KHc2hc.W (c : KHc2hc) (cexp : ℕ → ℤ → ℝ × ℝ) (r m : ℕ) (t : ℕ) : ℝ :=
  (Twiddle.compute cexp c.tw (r * m) r ((m - 1) / 2)).getD t 0

/-- `dobatch`, rdft/hc2hc-direct.c:78-95, for the columns `mb .. mb+bs-1` -/
noncomputable def dobatchHc (W : ℕ → ℝ) (c : KHc2hc) (t : HcP) (IOp IOm : Ptr) (mb bs : ℕ) (B : Ptr) (st : State) : State :=
  let b : ℤ := 2 * (batchsize t.r : ℤ)
  let rs : ℤ := (t.m : ℤ) * t.s
  let Bm := B + (b - 1)
  let st := Copy.cpy2dCi (IOp + (mb : ℤ) * t.s) B t.r rs b bs t.s 1 1 st
  let st := Copy.cpy2dCi (IOm + (- (mb : ℤ) * t.s)) Bm t.r rs b bs (- t.s) (-1) 1 st
  let st := c.k B Bm W b mb (mb + bs) 1 st
  let st := Copy.cpy2dCo B (IOp + (mb : ℤ) * t.s) t.r b rs bs 1 t.s 1 st
  Copy.cpy2dCo Bm (IOm + (- (mb : ℤ) * t.s)) t.r b rs bs (-1) (- t.s) 1 st

/-- rdft/hc2hc-direct.c, `apply` 44-59, `apply_buf` 97-125, `applicable` 165-184, `mkcldw` 189-262.  The buffer is allocated anew for every batch
(in C once for all batches): its old contents are never looked at. -/
noncomputable def hc2hcDirect (cexp : ℕ → ℤ → ℝ × ℝ) (c : KHc2hc) (bufferedp : Bool) (taste : HcP → Flags → Bool) : HInferior := fun fwd t IO fl =>
  if t.r = c.radix ∧ fwd = c.fwd ∧ taste t fl then
    let rs : ℤ := (t.m : ℤ) * t.s
    let imid : ℤ := ((t.m / 2 : ℕ) : ℤ) * t.s
    let cld0p := t.mb = 0
    let cldmp := 2 * (t.mb + t.mc) = t.m + 2
    let mb := t.mb + (if cld0p then 1 else 0)
    let me := t.mb + t.mc - (if cldmp then 1 else 0)
    .need (mkproblemRdft (if cld0p then [(⟨t.r, rs, rs⟩, hcKind fwd)] else []) (some []) IO IO) {} fun cld0 =>
    .need (mkproblemRdft (if cldmp then [(⟨t.r, rs, rs⟩, hcKindMid fwd)] else []) (some []) (IO + imid) (IO + imid)) {} fun cldm =>
    .ret (some fun IO =>
      forN t.v fun i st =>
        let IO := IO + (i : ℤ) * t.vs
        let st := cld0.rdftApply IO IO st
        let st :=
          if bufferedp then
            batches (batchsize t.r) (batchsize_pos _) me (fun j bs =>
              withBuf (dobatchHc (c.W cexp t.r t.m) c t IO (IO + (t.m : ℤ) * t.s) j bs)) mb st
          else c.k (IO + t.s * (mb : ℤ)) (IO + ((t.m : ℤ) - (mb : ℤ)) * t.s) (c.W cexp t.r t.m) rs mb me t.s st
        cldm.rdftApply (IO + imid) (IO + imid) st)
  else .ret none

end FFTW.RdftS
