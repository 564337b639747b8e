import Verif.Model.MpiDft

/-!
# Distributed real-to-real transforms: `mpi/rdft-problem.c` and the solvers `mpi/rdft-*.c`
-/

namespace FFTW.Mpi.Rdft
open Tensor
variable [CLib]

/-- exchange of `kind[0]` and `kind[1]`, mpi/rdft-problem.c:131-136 -/
def swapKinds : List RKind → List RKind
  | a :: b :: l => b :: a :: l
  | l => l

/-- `XM(mkproblem_rdft)`, mpi/rdft-problem.c:90-145; `XM(dtensor_canonical)(sz, 0)` (mpi/dtensor.c:75-105) keeps dimensions of size 1 -/
def mkRdft (sz : List DDim) (vn : ℕ) (I O : ℕ → Ptr) (comm : Comm) (kind : List RKind) (flags : MFlags) (space : ℕ → ℕ) : MRdftP :=
  let sz := sz.map DDim.canonical
  if flags.transposedIn ∧ sz.length > 1 then
    { sz := swapDims sz, vn, I, O, comm, kind := swapKinds kind, space,
      flags := { flags with transposedIn := false, transposedOut := !flags.transposedOut } }
  else { sz, vn, I, O, comm, kind, flags, space }

/-- `X(mkproblem_rdft_d)(sz, vec, P, Q, kinds)` -/
def rdftPr (sz : List Dim) (kinds : List RKind) (vec : List Dim) (P Q : Ptr) : Problem := mkproblemRdft (sz.zip kinds) (some vec) P Q

/-- `XM(rdft_serial_applicable)`, mpi/rdft-serial.c:56-62 -/
def rdftSerialApplicable (p : MRdftP) : Bool :=
  decide (p.flags = {}) && ((isLocalAfter 0 p.sz .IB && isLocalAfter 0 p.sz .OB) || decide (p.vn = 0))

/-- `(!NO_SLOWP(plnr) || !XM(rdft_serial_applicable)(p))`, mpi/rdft-rank-geq2.c:68-69 and others -/
def notSlow (p : MRdftP) (fl : Flags) : Bool := decide (fl.l &&& NO_SLOW = 0) || !rdftSerialApplicable p

/-- `(!ego->preserve_input || (!NO_DESTROY_INPUTP(plnr) && p->I != p->O))`, mpi/rdft-rank-geq2.c:64-65 and others -/
def preserveOk (preserve : Bool) (p : MRdftP) (fl : Flags) : Bool := !preserve || (!fl.nd && decide (¬ p.inpl))

/-- the dimensions `sz` of `cld1`, mpi/rdft-rank-geq2-transposed.c:138-145, rdft-rank-geq2.c:123-130: all but the first -/
def restSz (p : MRdftP) : List Dim := rowMajor p.vn (p.sz.tail.map DDim.n)
/-- the vector dimensions of `cld1` of process `me`, mpi/rdft-rank-geq2-transposed.c:148-153, rdft-rank-geq2.c:133-138 -/
def rowVec (p : MRdftP) (d0 : DDim) (me : ℕ) : List Dim :=
  [eqDim (Mpi.block d0.n d0.ib me) ((p.sz.tail.map DDim.n).prod * p.vn), eqDim p.vn 1]

/-- `mkplan` and `apply`, mpi/rdft-rank-geq2-transposed.c:110-196, 46-67; `applicable`, 69-84 -/
def geq2TransposedMk (preserve : Bool) (p : MRdftP) (fl : Flags) : MMk (Option MPlan) :=
  match p.sz, p.kind with
  | d0 :: d1 :: rest, k0 :: kinds =>
    if !(decide (p.flags = { transposedOut := true }) && preserveOk preserve p fl && isLocalAfter 1 p.sz .IB && isLocalAfter 2 p.sz .OB &&
        decide (numBlocks d0.n d0.ob = 1) && notSlow p fl) then .ret none
    else
      let c := p.comm
      let pre := preserve || fl.nd
      let I' := if pre then p.O else p.I                 -- where `cld1` leaves its result
      .needLoc c.length (fun me => some (rdftPr (restSz p) kinds (rowVec p d0 me) (p.I (c.at me)) (I' (c.at me)))) {} fun cld1 =>
      let nrest := (rest.map DDim.n).prod * p.vn
      .need (.transpose (mkTrans d0.n d1.n nrest I' p.O d0.ib d1.ob c {} p.space)) {} fun cldt =>
      .needLoc c.length (fun me => some (rdftPr [eqDim d0.n nrest] [k0]
        [eqDim (Mpi.block d1.n d1.ob me) (d0.n * nrest), eqDim nrest 1] (p.O (c.at me)) (p.O (c.at me)))) {} fun cld2 =>
      .ret <| some fun I O st =>
        let J := if pre then O else I
        let st := c.run (fun me => (cld1 me).rdftApply (I (c.at me)) (J (c.at me))) st
        let st := cldt J O st
        c.run (fun me => (cld2 me).rdftApply (O (c.at me)) (O (c.at me))) st
  | _, _ => .ret none

/-- `XM(rdft_rank_geq2_transposed_register)` -/
def rdftRankGeq2Transposed (preserve : Bool) : MSolver := rdftSolver (geq2TransposedMk preserve)

/-- `mkplan` and `apply`, mpi/rdft-rank-geq2.c:94-164, 38-55; `applicable`, 57-71 -/
def geq2Mk (preserve : Bool) (p : MRdftP) (fl : Flags) : MMk (Option MPlan) :=
  match p.sz, p.kind with
  | d0 :: d1 :: rest, k0 :: kinds =>
    if !(decide (p.flags = {}) && preserveOk preserve p fl && isLocalAfter 1 p.sz .IB && isLocalAfter 1 p.sz .OB && notSlow p fl) then .ret none
    else
      let c := p.comm
      let pre := preserve || fl.nd
      let I' := if pre then p.O else p.I
      .needLoc c.length (fun me => some (rdftPr (restSz p) kinds (rowVec p d0 me) (p.I (c.at me)) (I' (c.at me)))) {} fun cld1 =>
      let nrest := ((d1 :: rest).map DDim.n).prod
      .need (.rdft (mkRdft [d0] (nrest * p.vn) I' p.O c [k0] { bigvecOnly := true } p.space)) {} fun cld2 =>
      .ret <| some fun I O st =>
        let J := if pre then O else I
        let st := c.run (fun me => (cld1 me).rdftApply (I (c.at me)) (J (c.at me))) st
        cld2 J O st
  | _, _ => .ret none

/-- `XM(rdft_rank_geq2_register)` -/
def rdftRankGeq2 (preserve : Bool) : MSolver := rdftSolver (geq2Mk preserve)

/-- `mkplan` and `apply`, mpi/rdft-rank1-bigvec.c:114-187, 43-61; `applicable`, 63-86.  (The test of `p->vn` in mpi/dft-rank1-bigvec.c is switched off here.) -/
def bigvecMk (r : Rearrange) (preserve : Bool) (p : MRdftP) (fl : Flags) : MMk (Option MPlan) :=
  match p.sz, p.kind with
  | [d], k0 :: _ =>
    let c := p.comm
    let n := c.length
    if !(decide ({ p.flags with bigvecOnly := false } = ({} : MFlags)) && preserveOk preserve p fl && r.applicable d p.vn n && notSlow p fl) then .ret none
    else
      let nx := d.n
      let ny := r.ny d p.vn n
      if ny = 0 then .ret none
      else
        let vn := p.vn / ny
        let yblock := defaultBlock ny n
        let pre := preserve || fl.nd
        .need (.transpose (mkTrans nx ny vn p.I p.O d.ib yblock c {} p.space)) {} fun before =>
        let I' := if pre then p.O else p.I
        .needLoc n (fun me => some (rdftPr [eqDim nx vn] [k0] [eqDim (Mpi.block ny yblock me) (vn * nx), eqDim vn 1] (p.O (c.at me)) (I' (c.at me)))) {} fun cld =>
        .need (.transpose (mkTrans ny nx vn I' p.O yblock d.ob c {} p.space)) {} fun after =>
        .ret <| some fun I O st =>
          let st := before I O st
          let J := if pre then O else I
          let st := c.run (fun me => (cld me).rdftApply (O (c.at me)) (J (c.at me))) st
          after J O st
  | _, _ => .ret none

/-- `XM(rdft_rank1_bigvec_register)` -/
def rdftRank1Bigvec (r : Rearrange) (preserve : Bool) : MSolver := rdftSolver (bigvecMk r preserve)

/-- `mkplan` and `apply`, mpi/rdft-serial.c:64-113, 31-36.  Line 86 needs a dimension: the interface (mpi/api.c:663) and mpi/rdft-rank-geq2.c ask for no other problems. -/
def serialMk (p : MRdftP) (_fl : Flags) : MMk (Option MPlan) :=
  if !rdftSerialApplicable p then .ret none
  else
    let c := p.comm
    .needLoc c.length (fun me => some (if me = 0 ∧ p.vn > 0 then rdftPr (rowMajor p.vn (p.sz.map DDim.n)) p.kind [eqDim p.vn 1] (p.I (c.at me)) (p.O (c.at me))
      else rdftPr [] [] [eqDim 0 0] (p.I (c.at me)) (p.O (c.at me)))) {} fun cld =>
    .ret <| some fun I O st => c.run (fun me => (cld me).rdftApply (I (c.at me)) (O (c.at me))) st

/-- `XM(rdft_serial_register)` -/
def rdftSerial : MSolver := rdftSolver serialMk

end FFTW.Mpi.Rdft
