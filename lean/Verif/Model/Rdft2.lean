import Verif.Model.Buffered

/-!
# rdft/ solvers for real-to-complex and complex-to-real problems: nop2, rank0-rdft2, vrank-geq1-rdft2, rank-geq2-rdft2, rdft2-rdft, buffered2

`taste` stands for the tests that only steer the search, as in Model/DftSolvers.
-/

namespace FFTW.Rdft2S
open Tensor DftS Spec

variable [CLib]

/-- `MKSOLVER` for `PROBLEM_RDFT2` -/
def rdft2Solver (mk : Rdft2P → Flags → Mk (Option Plan)) : Solver :=
  ⟨fun p fl => match p with | .rdft2 p => mk p fl | _ => .nada⟩

/-- the answer of the solver `s` to problems of the shifted kinds `R2HCII` and `HC2RIII`.  Solvers without `orShifted` do not answer them:
rank0-rdft2 (rdft/rank0-rdft2.c:46-49), rdft2-rdft (rdft/rdft2-rdft.c:194), buffered2 (rdft/buffered2.c:145), rank-geq2-rdft2
(rdft/rank-geq2-rdft2.c:113) and ct-hc2c (rdft/ct-hc2c.c:116-124) test the kind; vrank-geq1-rdft2 would, but these problems have no vector
dimension (`KosherS`). -/
def orShifted (s : Solver) (mk : Rdft2P → Flags → Mk (Option Plan)) : Solver :=
  ⟨fun p fl => match p with | .rdft2s p => mk p fl | p => s.mkplan p fl⟩

/-- the real stride, `X(rdft2_strides)`, rdft/rdft2-strides.c:28-39 -/
def rstride (k : R2Kind) (d : Dim) : ℤ :=
  match k with
  | .R2HC => d.is
  | .HC2R => d.os
/-- the complex stride, `X(rdft2_strides)`, rdft/rdft2-strides.c:28-39 -/
def cstride (k : R2Kind) (d : Dim) : ℤ :=
  match k with
  | .R2HC => d.os
  | .HC2R => d.is

/-- `rdft_kind` as a real-to-real kind (`R2HC`, `HC2R`, rdft/codelet-rdft.h:48-49) -/
def toRKind : R2Kind → RKind
  | .R2HC => .R2HC00
  | .HC2R => .HC2R00

/-- the test for one vector dimension in `X(rdft2_inplace_strides)`, rdft/rdft2-inplace-strides.c:49-64 -/
def inplaceDim (p : Rdft2P) (d : Dim) : Bool :=
  match p.sz.getLast? with
  | none => decide (d.is = d.os)
  | some l =>
    let N := tensorSz (some p.sz)
    let Nc := (N / l.n) * (l.n / 2 + 1)
    decide (d.is = d.os) && decide ((2 * d.os).natAbs ≥ max (2 * Nc * (cstride p.kind l).natAbs) (N * (rstride p.kind l).natAbs))

/-- `X(rdft2_inplace_strides)`, rdft/rdft2-inplace-strides.c:31-65; `vdim = none` is `RNK_MINFTY`: all vector dimensions -/
def inplaceStridesR2 (p : Rdft2P) (vdim : Option ℕ) : Bool :=
  p.sz.dropLast.all (fun d => decide (d.is = d.os)) &&
  match p.vecsz with
  | none => true
  | some [] => true
  | some v =>
    match vdim with
    | none => v.all (inplaceDim p)
    | some i => match v[i]? with
      | some d => inplaceDim p d
      | none => false

/-- rdft/nop2.c:28-56, 64-79 -/
def nop2 : Solver :=
  orShifted
    (rdft2Solver fun p _ =>
      if p.vecsz = none ∨ (p.kind ≠ .R2HC ∧ p.sz.length = 0 ∧ p.vecsz.isSome ∧ p.r0 = p.cr ∧ inplaceStridesR2 p none = true) then
        .ret (some (.rdft2 fun _ _ _ _ st => st))
      else .nada)
    (fun p _ =>
      if p.vecsz = none ∨ (p.sz.length = 0 ∧ p.vecsz.isSome ∧ p.r0 = p.cr ∧ inplaceStridesR2 p none = true) then
        .ret (some (.rdft2 fun _ _ _ _ st => st))
      else .nada)

/-- one round of the first loop of `apply_r2hc`, rdft/rank0-rdft2.c:66-80: four loads, then the stores -/
def rank0Quad (ivs ovs : ℤ) (r0 cr ci : Ptr) (st : State) : State :=
  let x0 := st.mem r0
  let x1 := st.mem (r0 + ivs)
  let x2 := st.mem (r0 + 2 * ivs)
  let x3 := st.mem (r0 + 3 * ivs)
  let st := (st.set cr x0).set ci 0
  let st := (st.set (cr + ovs) x1).set (ci + ovs) 0
  let st := (st.set (cr + 2 * ovs) x2).set (ci + 2 * ovs) 0
  (st.set (cr + 3 * ovs) x3).set (ci + 3 * ovs) 0

/-- `apply_r2hc`, rdft/rank0-rdft2.c:59-88 (the second loop makes `vl % 4` rounds) -/
def rank0R2hc (vl : ℕ) (ivs ovs : ℤ) (r0 cr ci : Ptr) (st : State) : State :=
  let st := forN (vl / 4) (fun i => rank0Quad ivs ovs (r0 + ((4 * i : ℕ) : ℤ) * ivs) (cr + ((4 * i : ℕ) : ℤ) * ovs) (ci + ((4 * i : ℕ) : ℤ) * ovs)) st
  forN (vl % 4) (fun k st =>
    let i : ℤ := ((vl / 4 * 4 + k : ℕ) : ℤ)
    (st.set (cr + i * ovs) (st.mem (r0 + i * ivs))).set (ci + i * ovs) 0) st

/-- `apply_r2hc_inplace`, rdft/rank0-rdft2.c:91-108 -/
def rank0R2hcInplace (vl : ℕ) (ovs : ℤ) (ci : Ptr) (st : State) : State :=
  let st := forN (vl / 4) (fun i st =>
    (((st.set (ci + ((4 * i : ℕ) : ℤ) * ovs) 0).set (ci + ((4 * i + 1 : ℕ) : ℤ) * ovs) 0).set (ci + ((4 * i + 2 : ℕ) : ℤ) * ovs) 0).set (ci + ((4 * i + 3 : ℕ) : ℤ) * ovs) 0) st
  forN (vl % 4) (fun k st => st.set (ci + ((vl / 4 * 4 + k : ℕ) : ℤ) * ovs) 0) st

/-- rdft/rank0-rdft2.c, `applicable` 41-57, `apply_*` 59-119, `mkplan` 144-187 -/
def rank0 : Solver := rdft2Solver fun p _ =>
  if p.sz.length = 0 then
    match p.kind with
    | .HC2R =>
      .need (mkproblemRdft [] p.vecsz p.cr p.r0) {} fun cldcpy =>
      .ret (some (.rdft2 fun r0 _ cr _ st => cldcpy.rdftApply cr r0 st))
    | .R2HC =>
      match p.vecsz with
      | some v =>
        match tornk1 v with
        | some vd =>
          if p.r0 = p.cr then
            if inplaceStridesR2 p none then
              .ret (some (.rdft2 fun _ _ _ ci st => rank0R2hcInplace vd.n vd.os ci st))
            else .nada
          else .ret (some (.rdft2 fun r0 _ cr ci st => rank0R2hc vd.n vd.is vd.os r0 cr ci st))
        | none => .nada
      | none => .nada
  else .nada

/-- rdft/vrank-geq1-rdft2.c, `apply` 55-66, `applicable0` 94-108, `mkplan` 147-196 -/
def vrankGeq1 (vecloopDim : Int) (buddies : List Int) (taste : Taste) : Solver := rdft2Solver fun p fl =>
  match p.vecsz with
  | none => .nada
  | some v =>
    if v.length > 0 then
      match pickdim vecloopDim buddies v (decide (p.r0 ≠ p.cr)) with
      | none => .nada
      | some vdim =>
        if (p.r0 ≠ p.cr ∨ inplaceStridesR2 p (some vdim) = true) ∧ taste (.rdft2 p) fl then
          match v[vdim]? with
          | none => .nada
          | some d =>
            let rvs := rstride p.kind d
            let cvs := cstride p.kind d
            .need (mkproblemRdft2 p.sz (some (v.eraseIdx vdim)) p.r0 p.r1 p.cr p.ci p.kind) {} fun cld =>
              .ret (some (.rdft2 fun r0 r1 cr ci st =>
                forN d.n (fun i st => cld.rdft2Apply (r0 + (i : ℤ) * rvs) (r1 + (i : ℤ) * rvs) (cr + (i : ℤ) * cvs) (ci + (i : ℤ) * cvs) st) st))
        else .nada
    else .nada

/-- `sz2i->dims[sz2i->rnk - 1].n = sz2i->dims[sz2i->rnk - 1].n/2 + 1`, rdft/rank-geq2-rdft2.c:180 -/
def halveLast (sz : List Dim) : List Dim :=
  match sz.getLast? with
  | none => []
  | some d => sz.dropLast ++ [⟨d.n / 2 + 1, d.is, d.os⟩]

/-- rdft/rank-geq2-rdft2.c, `apply_*` 40-69, `picksplit` 93-102, `applicable0` 104-126, `mkplan` 154-217 -/
def rankGeq2 (spltrnk : Int) (buddies : List Int) (taste : Taste) : Solver := rdft2Solver fun p fl =>
  if p.vecsz.isSome ∧ p.sz.length ≥ 2 then
    match pickdim spltrnk buddies p.sz true with
    | none => .nada
    | some r =>
      if r + 1 < p.sz.length ∧ ((p.r0 ≠ p.cr ∧ (p.kind = .R2HC ∨ fl.nd = false)) ∨ p.r0 = p.cr) ∧ taste (.rdft2 p) fl then
        let sz1 := p.sz.take (r + 1)
        let sz2 := p.sz.drop (r + 1)
        let k : InplaceKind := match p.kind with
          | .R2HC => .OS
          | .HC2R => .IS
        let vecszi := copyInplace k p.vecsz
        let sz2i := halveLast (sz2.map (Dim.inplace k))
        .need (mkproblemRdft2 sz2 (append p.vecsz (some sz1)) p.r0 p.r1 p.cr p.ci p.kind) {} fun cldr =>
        match p.kind with
        | .R2HC =>
          .need (mkproblemDft (sz1.map (Dim.inplace k)) (append vecszi (some sz2i)) p.cr p.ci p.cr p.ci) {} fun cldc =>
          .ret (some (.rdft2 fun r0 r1 cr ci st => cldc.dftApply cr ci cr ci (cldr.rdft2Apply r0 r1 cr ci st)))
        | .HC2R =>
          .need (mkproblemDft (sz1.map (Dim.inplace k)) (append vecszi (some sz2i)) p.ci p.cr p.ci p.cr) {} fun cldc =>
          .ret (some (.rdft2 fun r0 r1 cr ci st => cldr.rdft2Apply r0 r1 cr ci (cldc.dftApply ci cr ci cr st)))
      else .nada
  else .nada

/-! ### rdft/rdft2-rdft.c -/

/-- `hc2c`, rdft/rdft2-rdft.c:42-58 (the loop ends with `i = (n-1)/2 + 1`) -/
def hc2c (n : ℕ) (r rio iio : Ptr) (os : ℤ) (st : State) : State :=
  let st := (st.set rio (st.mem r)).set iio 0
  let st := forN ((n - 1) / 2) (fun k st =>
    let i := k + 1
    let st := st.set (rio + (i : ℤ) * os) (st.mem (r + (i : ℤ)))
    st.set (iio + (i : ℤ) * os) (st.mem (r + ((n - i : ℕ) : ℤ)))) st
  let i := (n - 1) / 2 + 1
  if i + i = n then (st.set (rio + (i : ℤ) * os) (st.mem (r + (i : ℤ)))).set (iio + (i : ℤ) * os) 0 else st

/-- `c2hc`, rdft/rdft2-rdft.c:61-74 -/
def c2hc (n : ℕ) (rio iio : Ptr) (is : ℤ) (r : Ptr) (st : State) : State :=
  let st := st.set r (st.mem rio)
  let st := forN ((n - 1) / 2) (fun k st =>
    let i := k + 1
    let st := st.set (r + (i : ℤ)) (st.mem (rio + (i : ℤ) * is))
    st.set (r + ((n - i : ℕ) : ℤ)) (st.mem (iio + (i : ℤ) * is))) st
  let i := (n - 1) / 2 + 1
  if i + i = n then st.set (r + (i : ℤ)) (st.mem (rio + (i : ℤ) * is)) else st

/-- `min_nbuf`, rdft/rdft2-rdft.c:157-183 -/
def minNbuf (p : Rdft2P) (d : Dim) (vl : ℕ) : ℕ :=
  if p.r0 ≠ p.cr then 1
  else if inplaceStridesR2 p none then 1
  else match p.vecsz with
    | some [v] =>
      let is := rstride p.kind d
      let os := cstride p.kind d
      let ivs := rstride p.kind v
      let ovs := cstride p.kind v
      if d.n * is.natAbs ≤ ivs.natAbs ∧ (d.n / 2 + 1) * os.natAbs ≤ ovs.natAbs ∧
          ((p.cr - p.ci : ℤ) ≤ os.natAbs ∨ (p.ci - p.cr : ℤ) ≤ os.natAbs) ∧ ivs > 0 ∧ ovs > 0 then
        let vsmin := min ivs.natAbs ovs.natAbs
        let vsmax := max ivs.natAbs ovs.natAbs
        ((vsmax - vsmin) * vl + vsmin - 1) / vsmin
      else vl
    | _ => vl

/-- rdft/rdft2-rdft.c, `apply_*` 78-130, `applicable0` 185-202, `mkplan` 220-316 -/
def rdft2Rdft (szR : ℕ) (taste : Taste) : Solver := rdft2Solver fun p fl =>
  match p.sz, p.vecsz with
  | [d], some v =>
    match tornk1 v with
    | some vd =>
      if 2 * (p.r1 - p.r0 : ℤ) = rstride p.kind d ∧ taste (.rdft2 p) fl then
        let n := d.n
        let vl := vd.n
        let ivs := vd.is
        let ovs := vd.os
        let nb := max (nbuf szR n vl 0) (minNbuf p d vl)
        let bd : ℤ := bufdist n vl
        let bufs := planBuf [p.r0, p.r1, p.cr, p.ci]
        let id : ℤ := ivs * ((nb : ℤ) * ((vl / nb : ℕ) : ℤ))
        let od : ℤ := ovs * ((nb : ℤ) * ((vl / nb : ℕ) : ℤ))
        match p.kind with
        | .R2HC =>
          .need (mkproblemRdft [(⟨n, d.is.tdiv 2, 1⟩, .R2HC00)] (some [⟨nb, ivs, bd⟩]) p.r0 bufs)
            { ureset := if p.r0 = p.cr then NO_DESTROY_INPUT else 0 } fun cld =>
          .need (mkproblemRdft2 p.sz (some [⟨vl % nb, ivs, ovs⟩]) (p.r0 + id) (p.r1 + id) (p.cr + od) (p.ci + od) p.kind) {} fun cldrest =>
          .ret (some (.rdft2 fun r0 r1 cr ci st =>
            let r := bufLoop nb vl (fun k => withBuf fun B st =>
              let st := cld.rdftApply (r0 + (k : ℤ) * (ivs * (nb : ℤ))) B st
              forN nb (fun j => hc2c n (B + (j : ℤ) * bd) (cr + ((k * nb + j : ℕ) : ℤ) * ovs) (ci + ((k * nb + j : ℕ) : ℤ) * ovs) d.os) st) nb 0 st
            cldrest.rdft2Apply (r0 + (r.2 : ℤ) * (ivs * (nb : ℤ))) (r1 + (r.2 : ℤ) * (ivs * (nb : ℤ)))
              (cr + ((r.2 * nb : ℕ) : ℤ) * ovs) (ci + ((r.2 * nb : ℕ) : ℤ) * ovs) r.1))
        | .HC2R =>
          .need (mkproblemRdft [(⟨n, 1, d.os.tdiv 2⟩, .HC2R00)] (some [⟨nb, bd, ovs⟩]) bufs p.r0)
            { ureset := NO_DESTROY_INPUT } fun cld =>
          .need (mkproblemRdft2 p.sz (some [⟨vl % nb, ivs, ovs⟩]) (p.r0 + od) (p.r1 + od) (p.cr + id) (p.ci + id) p.kind) {} fun cldrest =>
          .ret (some (.rdft2 fun r0 r1 cr ci st =>
            let r := bufLoop nb vl (fun k => withBuf fun B st =>
              let st := forN nb (fun j => c2hc n (cr + ((k * nb + j : ℕ) : ℤ) * ivs) (ci + ((k * nb + j : ℕ) : ℤ) * ivs) d.is (B + (j : ℤ) * bd)) st
              cld.rdftApply B (r0 + (k : ℤ) * (ovs * (nb : ℤ))) st) nb 0 st
            cldrest.rdft2Apply (r0 + (r.2 : ℤ) * (ovs * (nb : ℤ))) (r1 + (r.2 : ℤ) * (ovs * (nb : ℤ)))
              (cr + ((r.2 * nb : ℕ) : ℤ) * ivs) (ci + ((r.2 * nb : ℕ) : ℤ) * ivs) r.1))
      else .nada
    | none => .nada
  | _, _ => .nada

/-! ### rdft/buffered2.c -/

/-- structural part of `applicable0`, rdft/buffered2.c:132-197 (`maxnbufs`, rdft/buffered2.c:32, is the table of dft/buffered.c) -/
def buffered2Applicable (szR which : ℕ) (p : Rdft2P) (fl : Flags) (d vd : Dim) (v : List Dim) : Bool :=
  decide (d.n % 2 = 0) && !nbufRedundant szR d.n vd.n which maxnbufs &&
    (if p.r0 ≠ p.cr then
      match p.kind with
      | .HC2R => fl.nd
      | .R2HC => decide (d.os > 2)
     else inplaceStridesR2 p none || decide (v.length = 0) || decide (nbuf szR d.n vd.n (maxnbufs.getD which 0) = vd.n))

/-- rdft/buffered2.c, `apply_*` 44-103, `mkplan` 224-360 -/
def buffered2 (szR which : ℕ) (taste : Taste) : Solver := rdft2Solver fun p fl =>
  match p.sz, p.vecsz with
  | [d], some v =>
    match tornk1 v with
    | some vd =>
      if buffered2Applicable szR which p fl d vd v ∧ taste (.rdft2 p) fl then
        let n := d.n
        let vl := vd.n
        let ivs := vd.is
        let ovs := vd.os
        let nb := nbuf szR n vl (maxnbufs.getD which 0)
        let bd : ℤ := bufdist (n + 2) vl
        let roff : ℤ := if (p.cr - p.ci : ℤ) > (0 : ℤ) then 1 else 0
        let ioff : ℤ := 1 - roff
        let bufs := planBuf [p.r0, p.r1, p.cr, p.ci]
        let id : ℤ := ivs * ((nb : ℤ) * ((vl / nb : ℕ) : ℤ))
        let od : ℤ := ovs * ((nb : ℤ) * ((vl / nb : ℕ) : ℤ))
        let ivsn := ivs * (nb : ℤ)
        let ovsn := ovs * (nb : ℤ)
        match p.kind with
        | .R2HC =>
          .need (mkproblemRdft2 [⟨n, d.is, 2⟩] (some [⟨nb, ivs, bd⟩]) p.r0 p.r1 (bufs + roff) (bufs + ioff) p.kind)
            { ureset := if p.r0 = p.cr then NO_DESTROY_INPUT else 0 } fun cld =>
          .need (mkproblemDft [] (some [⟨nb, bd, ovs⟩, ⟨n / 2 + 1, 2, d.os⟩]) (bufs + roff) (bufs + ioff) p.cr p.ci) {} fun cldcpy =>
          .need (mkproblemRdft2 p.sz (some [⟨vl % nb, ivs, ovs⟩]) (p.r0 + id) (p.r1 + id) (p.cr + od) (p.ci + od) p.kind) {} fun cldrest =>
          .ret (some (.rdft2 fun r0 r1 cr ci st =>
            let r := bufLoop nb vl (fun k => withBuf fun B st =>
              cldcpy.dftApply (B + roff) (B + ioff) (cr + (k : ℤ) * ovsn) (ci + (k : ℤ) * ovsn)
                (cld.rdft2Apply (r0 + (k : ℤ) * ivsn) (r1 + (k : ℤ) * ivsn) (B + roff) (B + ioff) st)) nb 0 st
            cldrest.rdft2Apply (r0 + (r.2 : ℤ) * ivsn) (r1 + (r.2 : ℤ) * ivsn) (cr + (r.2 : ℤ) * ovsn) (ci + (r.2 : ℤ) * ovsn) r.1))
        | .HC2R =>
          .need (mkproblemRdft2 [⟨n, 2, d.os⟩] (some [⟨nb, bd, ovs⟩]) p.r0 p.r1 (bufs + roff) (bufs + ioff) p.kind)
            { ureset := NO_DESTROY_INPUT } fun cld =>
          .need (mkproblemDft [] (some [⟨nb, ivs, bd⟩, ⟨n / 2 + 1, d.is, 2⟩]) p.cr p.ci (bufs + roff) (bufs + ioff)) {} fun cldcpy =>
          .need (mkproblemRdft2 p.sz (some [⟨vl % nb, ivs, ovs⟩]) (p.r0 + od) (p.r1 + od) (p.cr + id) (p.ci + id) p.kind) {} fun cldrest =>
          .ret (some (.rdft2 fun r0 r1 cr ci st =>
            let r := bufLoop nb vl (fun k => withBuf fun B st =>
              cld.rdft2Apply (r0 + (k : ℤ) * ovsn) (r1 + (k : ℤ) * ovsn) (B + roff) (B + ioff)
                (cldcpy.dftApply (cr + (k : ℤ) * ivsn) (ci + (k : ℤ) * ivsn) (B + roff) (B + ioff) st)) nb 0 st
            cldrest.rdft2Apply (r0 + (r.2 : ℤ) * ovsn) (r1 + (r.2 : ℤ) * ovsn) (cr + (r.2 : ℤ) * ivsn) (ci + (r.2 : ℤ) * ivsn) r.1))
      else .nada
    | none => .nada
  | _, _ => .nada

end FFTW.Rdft2S
