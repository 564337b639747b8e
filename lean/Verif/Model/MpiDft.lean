import Verif.Model.MpiTranspose

/-!
# Distributed complex DFTs: `mpi/dft-problem.c`, `mpi/dtensor.c`, `mpi/rearrange.c` and the solvers `mpi/dft-*.c`

`mpi/dft-rank1.c` is not modelled here.
-/

namespace FFTW.Mpi
open Tensor
variable [CLib]

/-- one dimension in `XM(dtensor_canonical)(sz, 1)`, mpi/dtensor.c:93-99 -/
def DDim.canonical (d : DDim) : DDim :=
  ⟨d.n, if numBlocks d.n d.ib = 1 then d.n else d.ib, if numBlocks d.n d.ob = 1 then d.n else d.ob⟩

/-- `XM(dtensor_canonical)(sz, 1)`, mpi/dtensor.c:75-105; sizes are positive here (the interface refuses others, mpi/api.c:570-573) -/
def canonical (sz : List DDim) : List DDim := (sz.filter fun d => decide (d.n > 1)).map DDim.canonical

/-- exchange of `dims[0]` and `dims[1]`, mpi/dft-problem.c:113-115 -/
def swapDims : List DDim → List DDim
  | a :: b :: l => b :: a :: l
  | l => l

/-- `XM(mkproblem_dft)`, mpi/dft-problem.c:83-125 -/
def mkDft (sz : List DDim) (vn : ℕ) (I O : ℕ → Ptr) (comm : Comm) (bwd : Bool) (flags : MFlags) (space : ℕ → ℕ) : MDftP :=
  let sz := canonical sz
  if flags.transposedIn ∧ sz.length > 1 then
    { sz := swapDims sz, vn, I, O, comm, bwd, space,
      flags := { flags with transposedIn := false, transposedOut := !flags.transposedOut } }
  else { sz, vn, I, O, comm, bwd, flags, space }

/-- which block sizes: `block_kind`, mpi/ifftw-mpi.h:59 -/
inductive BK
  | IB
  | OB
/-- `d.b[k]` -/
def DDim.b (d : DDim) : BK → ℕ
  | .IB => d.ib
  | .OB => d.ob

/-- `XM(is_local_after)`, mpi/block.c:108-115 -/
def isLocalAfter (dim : ℕ) (sz : List DDim) (k : BK) : Bool := (sz.drop dim).all fun d => !decide (numBlocks d.n (d.b k) > 1)

/-- a dimension with equal strides -/
def eqDim (n s : ℕ) : Dim := ⟨n, s, s⟩

/-- the loops of mpi/dft-rank-geq2-transposed.c:134-141, dft-rank-geq2.c:118-125, dft-serial.c:92-98: the dimensions `ns` of an array in row-major
order whose elements are `s` numbers -/
def rowMajor (s : ℕ) : List ℕ → List Dim
  | [] => []
  | n :: ns => eqDim n (ns.prod * s) :: rowMajor s ns

/-- `X(extract_reim)`, api/extract-reim.c:26-36, with `sign` -/
def roff (bwd : Bool) : ℤ := if bwd then 1 else 0
/-- the same -/
def ioff (bwd : Bool) : ℤ := if bwd then 0 else 1

/-- `X(mkproblem_dft_d)(sz, vec, ri, ii, ro, io)` with pointers from `extract_reim` -/
def dftPr (bwd : Bool) (sz vec : List Dim) (P Q : Ptr) : Problem := mkproblemDft sz (some vec) (P + roff bwd) (P + ioff bwd) (Q + roff bwd) (Q + ioff bwd)

/-- `cld->apply(cld, P+roff, P+ioff, Q+roff, Q+ioff)` -/
def applyDft (bwd : Bool) (c : Plan) (P Q : Ptr) : State → State := c.dftApply (P + roff bwd) (P + ioff bwd) (Q + roff bwd) (Q + ioff bwd)

/-- `XM(dft_serial_applicable)`, mpi/dft-serial.c:53-59 -/
def dftSerialApplicable (p : MDftP) : Bool :=
  decide (p.flags = {}) && ((isLocalAfter 0 p.sz .IB && isLocalAfter 0 p.sz .OB) || decide (p.vn = 0))

/-- `(!NO_SLOWP(plnr) || !XM(dft_serial_applicable)(p))`, mpi/dft-rank-geq2.c:84-85 and others; `NO_SLOWP` is kernel/ifftw.h:686 -/
def notSlow (p : MDftP) (fl : Flags) : Bool := decide (fl.l &&& NO_SLOW = 0) || !dftSerialApplicable p

/-- `(!ego->preserve_input || (!NO_DESTROY_INPUTP(plnr) && p->I != p->O))` -/
def preserveOk (preserve : Bool) (p : MDftP) (fl : Flags) : Bool := !preserve || (!fl.nd && decide (¬ p.inpl))

/-- the dimensions `sz` of `cld1`, mpi/dft-rank-geq2-transposed.c:134-141, dft-rank-geq2.c:118-125: all but the first -/
def restSz (p : MDftP) : List Dim := rowMajor (p.vn * 2) (p.sz.tail.map DDim.n)
/-- the vector dimensions of `cld1` of process `me`, mpi/dft-rank-geq2-transposed.c:144-149, dft-rank-geq2.c:128-133 -/
def rowVec (p : MDftP) (d0 : DDim) (me : ℕ) : List Dim :=
  [eqDim (Mpi.block d0.n d0.ib me) ((p.sz.tail.map DDim.n).prod * (p.vn * 2)), eqDim p.vn 2]

/-- `mkplan` and `apply`, mpi/dft-rank-geq2-transposed.c:107-198, 47-70; `preserve` is the solver's `preserve_input` -/
def geq2TransposedMk (preserve : Bool) (p : MDftP) (fl : Flags) : MMk (Option MPlan) :=
  match p.sz with
  | d0 :: d1 :: rest =>
    if !(decide (p.flags = { transposedOut := true }) && preserveOk preserve p fl && isLocalAfter 1 p.sz .IB && isLocalAfter 2 p.sz .OB &&
        decide (numBlocks d0.n d0.ob = 1) && notSlow p fl) then .ret none
    else
      let c := p.comm
      let pre := preserve || fl.nd
      let I' := if pre then p.O else p.I                 -- where `cld1` leaves its result
      .needLoc c.length (fun me => some (dftPr p.bwd (restSz p) (rowVec p d0 me) (p.I (c.at me)) (I' (c.at me)))) {} fun cld1 =>
      let nrest := (rest.map DDim.n).prod * p.vn
      .need (.transpose (mkTrans d0.n d1.n (nrest * 2) I' p.O d0.ib d1.ob c {} p.space)) {} fun cldt =>
      .needLoc c.length (fun me => some (dftPr p.bwd [eqDim d0.n (nrest * 2)]
        [eqDim (Mpi.block d1.n d1.ob me) (d0.n * nrest * 2), eqDim nrest 2] (p.O (c.at me)) (p.O (c.at me)))) {} fun cld2 =>
      .ret <| some fun I O st =>
        let J := if pre then O else I
        let st := c.run (fun me => applyDft p.bwd (cld1 me) (I (c.at me)) (J (c.at me))) st
        let st := cldt J O st
        c.run (fun me => applyDft p.bwd (cld2 me) (O (c.at me)) (O (c.at me))) st
  | _ => .ret none

/-- `XM(dft_rank_geq2_transposed_register)` -/
def dftRankGeq2Transposed (preserve : Bool) : MSolver := dftSolver (geq2TransposedMk preserve)

/-- `mkplan` and `apply`, mpi/dft-rank-geq2.c:107-173, 41-61 -/
def geq2Mk (preserve : Bool) (p : MDftP) (fl : Flags) : MMk (Option MPlan) :=
  match p.sz with
  | d0 :: d1 :: rest =>
    if !(decide (p.flags = {}) && preserveOk preserve p fl && isLocalAfter 1 p.sz .IB && isLocalAfter 1 p.sz .OB && notSlow p fl) then .ret none
    else
      let c := p.comm
      let pre := preserve || fl.nd
      let I' := if pre then p.O else p.I
      .needLoc c.length (fun me => some (dftPr p.bwd (restSz p) (rowVec p d0 me) (p.I (c.at me)) (I' (c.at me)))) {} fun cld1 =>
      let nrest := ((d1 :: rest).map DDim.n).prod
      .need (.dft (mkDft [d0] (nrest * p.vn) I' p.O c p.bwd { bigvecOnly := true } p.space)) {} fun cld2 =>
      .ret <| some fun I O st =>
        let J := if pre then O else I
        let st := c.run (fun me => applyDft p.bwd (cld1 me) (I (c.at me)) (J (c.at me))) st
        cld2 J O st
  | _ => .ret none

/-- `XM(dft_rank_geq2_register)` -/
def dftRankGeq2 (preserve : Bool) : MSolver := dftSolver (geq2Mk preserve)

/-- `rearrangement`, mpi/ifftw-mpi.h:123-129 -/
inductive Rearrange
  | contig
  | discontig
  | squareBefore
  | squareAfter
  | squareMiddle

/-- `div_mult`, mpi/rearrange.c:26-28 -/
def divMult (b a : ℕ) : Bool := decide (a > b) && decide (a % b = 0)

/-- `XM(rearrange_applicable)`, mpi/rearrange.c:33-50 -/
def Rearrange.applicable (r : Rearrange) (d : DDim) (vn npes : ℕ) : Bool :=
  match r with
  | .contig => true
  | .discontig => divMult npes vn
  | .squareBefore => divMult d.ib vn && divMult npes d.ib
  | .squareAfter => decide (d.ib ≠ d.ob) && (divMult d.ob vn && divMult npes d.ob)
  | .squareMiddle => divMult (d.n * npes) vn

/-- `XM(rearrange_ny)`, mpi/rearrange.c:52-67 -/
def Rearrange.ny (r : Rearrange) (d : DDim) (vn npes : ℕ) : ℕ :=
  match r with
  | .contig => vn
  | .discontig => npes
  | .squareBefore => d.ib
  | .squareAfter => d.ob
  | .squareMiddle => d.n * npes

/-- `mkplan` and `apply`, mpi/dft-rank1-bigvec.c:119-206, 46-67 -/
def bigvecMk (r : Rearrange) (preserve : Bool) (p : MDftP) (fl : Flags) : MMk (Option MPlan) :=
  match p.sz with
  | [d] =>
    let c := p.comm
    let n := c.length
    if !(decide ({ p.flags with bigvecOnly := false } = ({} : MFlags)) && preserveOk preserve p fl && (decide (p.vn ≥ n) || p.flags.bigvecOnly) &&
        r.applicable d p.vn n && notSlow p fl) then .ret none
    else
      let nx := d.n
      let ny := r.ny d p.vn n
      if ny = 0 then .ret none
      else
        let vn := p.vn / ny
        let yblock := defaultBlock ny n
        let pre := preserve || fl.nd
        .need (.transpose (mkTrans nx ny (vn * 2) p.I p.O d.ib yblock c {} p.space)) {} fun before =>
        let I' := if pre then p.O else p.I
        .needLoc n (fun me => some (dftPr p.bwd [eqDim nx (vn * 2)] [eqDim (Mpi.block ny yblock me) (vn * 2 * nx), eqDim vn 2] (p.O (c.at me)) (I' (c.at me)))) {} fun cld =>
        .need (.transpose (mkTrans ny nx (vn * 2) I' p.O yblock d.ob c {} p.space)) {} fun after =>
        .ret <| some fun I O st =>
          let st := before I O st
          let J := if pre then O else I
          let st := c.run (fun me => applyDft p.bwd (cld me) (O (c.at me)) (J (c.at me))) st
          after J O st
  | _ => .ret none

/-- `XM(dft_rank1_bigvec_register)` -/
def dftRank1Bigvec (r : Rearrange) (preserve : Bool) : MSolver := dftSolver (bigvecMk r preserve)

/-- `mkplan` and `apply`, mpi/dft-serial.c:61-117, 35-42.  If the problem has no dimensions left, `sz->dims[rnk - 1]` (line 93) is outside of the array: undefined
behaviour, whose effect is the parameter `ub`. -/
def serialMk (ub : MDftP → MPlan) (p : MDftP) (_fl : Flags) : MMk (Option MPlan) :=
  if !dftSerialApplicable p then .ret none
  else if p.vn > 0 ∧ p.sz = [] then .ret (some (ub p))
  else
    let c := p.comm
    .needLoc c.length (fun me => some (if me = 0 ∧ p.vn > 0 then dftPr p.bwd (rowMajor (p.vn * 2) (p.sz.map DDim.n)) [eqDim p.vn 2] (p.I (c.at me)) (p.O (c.at me))
      else dftPr p.bwd [] [eqDim 0 0] (p.I (c.at me)) (p.O (c.at me)))) {} fun cld =>
    .ret <| some fun I O st => c.run (fun me => applyDft p.bwd (cld me) (I (c.at me)) (O (c.at me))) st

/-- `XM(dft_serial_register)` -/
def dftSerial (ub : MDftP → MPlan) : MSolver := dftSolver (serialMk ub)

end FFTW.Mpi
