import Verif.Model.Problem

/-!
# dft/ solvers that rearrange: nop, vrank-geq1, rank-geq2, indirect, indirect-transpose

Tests that only steer the search (`NO_UGLYP`, `NO_VRANK_SPLITSP`, `NO_INDIRECT_OP_P`, ...) are an arbitrary parameter
`taste`, so the theorems hold for every such policy.  Operation counts are not modelled.
-/

namespace FFTW.DftS
open Tensor

variable [CLib]

/-- heuristic part of `applicable` -/
abbrev Taste := Problem → Flags → Bool

/-- `X(mktensor_0d)()` -/
def tensor0d : Tensor := some []

/-- `MKSOLVER` for `PROBLEM_DFT`: problems of other kinds are never passed to it -/
def dftSolver (mk : DftP → Flags → Mk (Option Plan)) : Solver :=
  ⟨fun p fl => match p with | .dft p => mk p fl | _ => .nada⟩

/-- dft/nop.c:26-49, 59-75 -/
def nop : Solver := dftSolver fun p _ =>
  if p.vecsz = none ∨ (p.sz.length = 0 ∧ ∃ l, p.vecsz = some l ∧ p.ro = p.ri ∧ inplaceStrides l = true) then
    .ret (some (.dft fun _ _ _ _ st => st))
  else .nada

/-- `oop || sz->dims[i].is == sz->dims[i].os`, kernel/pickdim.c:36 -/
def pickOk (sz : List Dim) (oop : Bool) (i : ℕ) : Bool :=
  match sz[i]? with
  | some d => oop || decide (d.is = d.os)
  | none => false

/-- `really_pickdim`, kernel/pickdim.c:29-63 -/
def reallyPickdim (which : Int) (sz : List Dim) (oop : Bool) : Option ℕ :=
  let ok := pickOk sz oop
  if which > 0 then ((List.range sz.length).filter ok)[which.toNat - 1]?
  else if which < 0 then (((List.range sz.length).reverse).filter ok)[(-which).toNat - 1]?
  else if ok ((sz.length - 1) / 2) then some ((sz.length - 1) / 2) else none

/-- `X(pickdim)`, kernel/pickdim.c:67-87 -/
def pickdim (which : Int) (buddies : List Int) (sz : List Dim) (oop : Bool) : Option ℕ :=
  match reallyPickdim which sz oop with
  | none => none
  | some d =>
    if (buddies.takeWhile fun b => decide (b ≠ which)).any fun b => decide (reallyPickdim b sz oop = some d) then none else some d

/-- dft/vrank-geq1.c, `apply` 53-64, `applicable0` 92-108, `mkplan` 144-187 -/
def vrankGeq1 (vecloopDim : Int) (buddies : List Int) (taste : Taste) : Solver := dftSolver fun p fl =>
  match p.vecsz with
  | none => .nada
  | some v =>
    if v.length > 0 ∧ p.sz.length > 0 then
      match pickdim vecloopDim buddies v (decide (p.ri ≠ p.ro)) with
      | none => .nada
      | some vdim =>
        if taste (.dft p) fl then
          match v[vdim]? with
          | none => .nada
          | some d =>
            .need (mkproblemDft p.sz (some (v.eraseIdx vdim)) p.ri p.ii p.ro p.io) {} fun cld =>
              .ret (some (.dft fun ri ii ro io st =>
                forN d.n (fun i st => cld.dftApply (ri + (i : ℤ) * d.is) (ii + (i : ℤ) * d.is) (ro + (i : ℤ) * d.os) (io + (i : ℤ) * d.os) st) st))
        else .nada
    else .nada

/-- dft/rank-geq2.c, `apply` 41-52, `picksplit` 76-85, `applicable0` 87-97, `mkplan` 121-172 -/
def rankGeq2 (spltrnk : Int) (buddies : List Int) (taste : Taste) : Solver := dftSolver fun p fl =>
  if p.vecsz.isSome ∧ p.sz.length ≥ 2 then
    match pickdim spltrnk buddies p.sz true with
    | none => .nada
    | some r =>
      if r + 1 < p.sz.length ∧ taste (.dft p) fl then
        let sz1 := p.sz.take (r + 1)
        let sz2 := p.sz.drop (r + 1)
        let vecszi := copyInplace .OS p.vecsz
        let sz2i := copyInplace .OS (some sz2)
        .need (mkproblemDft sz2 (append p.vecsz (some sz1)) p.ri p.ii p.ro p.io) {} fun cld1 =>
        .need (mkproblemDft (sz1.map (Dim.inplace .OS)) (append vecszi sz2i) p.ro p.io p.ro p.io) {} fun cld2 =>
        .ret (some (.dft fun ri ii ro io st => cld2.dftApply ro io ro io (cld1.dftApply ri ii ro io st)))
      else .nada
  else .nada

/-- `applicable0`, dft/indirect.c:132-182 (`after`: `adt_after`) -/
def indirectApplicable (after : Bool) (p : DftP) (v : List Dim) (nd : Bool) : Bool :=
  decide (p.sz.length > 0) &&
  ((decide (p.ri = p.ro) && !(inplaceStrides2 p.sz v) && stridesDecrease p.sz v (if after then .IS else .OS))
   || (decide (p.ri ≠ p.ro) && after && !nd && decide (minIstride p.sz ≤ 2) && decide (minOstride p.sz > 2))
   || (decide (p.ri ≠ p.ro) && !after && decide (minOstride p.sz ≤ 2) && decide (minIstride p.sz > 2)))

/-- dft/indirect.c, `apply_before`/`apply_after` 55-68, 87-100, `mkcld_*` 70-75, 102-107, `mkplan` 195-230 -/
def indirect (after : Bool) (taste : Taste) : Solver := dftSolver fun p fl =>
  match p.vecsz with
  | none => .nada
  | some v =>
    if indirectApplicable after p v fl.nd ∧ taste (.dft p) fl then
      .need (mkproblemDft [] (append p.vecsz (some p.sz)) p.ri p.ii p.ro p.io) {} fun cldcpy =>
      if after then
        .need (mkproblemDft (p.sz.map (Dim.inplace .IS)) (copyInplace .IS p.vecsz) p.ri p.ii p.ri p.ii) { lset := NO_BUFFERING } fun cld =>
        .ret (some (.dft fun ri ii ro io st => cldcpy.dftApply ri ii ro io (cld.dftApply ri ii ri ii st)))
      else
        .need (mkproblemDft (p.sz.map (Dim.inplace .OS)) (copyInplace .OS p.vecsz) p.ro p.io p.ro p.io) { lset := NO_BUFFERING } fun cld =>
        .ret (some (.dft fun ri ii ro io st => cld.dftApply ro io ro io (cldcpy.dftApply ri ii ro io st)))
    else .nada

/-- the test inside the loops of `pickdim`, dft/indirect-transpose.c:88-92 -/
def itTest (vs s : List Dim) (best : Option (ℕ × ℕ)) (dim0 dim1 : ℕ) : Bool :=
  match vs[dim0]?, s[dim1]? with
  | some a, some b =>
    decide ((a.n : ℤ) * iabs a.is ≤ iabs b.is) && decide (a.n ≥ b.n) &&
      (match best with
       | none => true
       | some (q0, q1) =>
         match vs[q0]?, s[q1]? with
         | some a', some b' => decide (iabs a.is ≤ iabs a'.is) && decide (iabs b.is ≥ iabs b'.is)
         | _, _ => false)
  | _, _ => false

/-- `pickdim`, dft/indirect-transpose.c:84-99 -/
def itPickdim (vs s : List Dim) : Option (ℕ × ℕ) :=
  (List.range vs.length).foldl (fun best dim0 =>
    (List.range s.length).foldl (fun best dim1 => if itTest vs s best dim0 dim1 then some (dim0, dim1) else best) best) none

/-- dft/indirect-transpose.c, `apply_op` 37-60, `applicable0` 101-122, `mkplan` 151-228 -/
def indirectTranspose (taste : Taste) : Solver := dftSolver fun p fl =>
  match p.vecsz with
  | none => .nada
  | some v =>
    if inplaceStrides2 v p.sz then
      match itPickdim v p.sz with
      | none => .nada
      | some (pdim0, pdim1) =>
        match v[pdim0]?, p.sz[pdim1]? with
        | some dv, some ds =>
          if ds.os ≠ dv.is ∧ taste (.dft p) fl then
            let vl := dv.n / ds.n
            let ivs := (ds.n : ℤ) * dv.is
            let ovs := (ds.n : ℤ) * dv.os
            let ts := (p.sz.map (Dim.inplace .IS)).modify pdim1 fun d => { d with os := dv.is }
            let tv := (v.map (Dim.inplace .IS)).modify pdim0 fun d => { d with os := ds.is, n := ds.n }
            .need (mkproblemDft [] (append (some tv) (some ts)) p.ri p.ii p.ro p.io) {} fun cldtrans =>
            let ts := p.sz.modify pdim1 fun d => { d with is := dv.is }
            let tv := v.modify pdim0 fun d => { d with is := ds.is, n := ds.n }
            .need (mkproblemDft ts (some tv) p.ro p.io p.ro p.io) {} fun cld =>
            let tv := v.modify pdim0 fun d => { d with n := d.n - vl * ds.n }
            .need (mkproblemDft p.sz (some tv) (p.ri + ivs * (vl : ℤ)) (p.ii + ivs * (vl : ℤ)) (p.ro + ovs * (vl : ℤ)) (p.io + ovs * (vl : ℤ))) {} fun cldrest =>
            .ret (some (.dft fun ri ii ro io st =>
              let st := forN vl (fun i st =>
                let st := cldtrans.dftApply (ri + (i : ℤ) * ivs) (ii + (i : ℤ) * ivs) (ro + (i : ℤ) * ovs) (io + (i : ℤ) * ovs) st
                cld.dftApply (ro + (i : ℤ) * ovs) (io + (i : ℤ) * ovs) (ro + (i : ℤ) * ovs) (io + (i : ℤ) * ovs) st) st
              cldrest.dftApply (ri + ivs * (vl : ℤ)) (ii + ivs * (vl : ℤ)) (ro + ovs * (vl : ℤ)) (io + ovs * (vl : ℤ)) st))
          else .nada
        | _, _ => .nada
    else .nada

end FFTW.DftS
