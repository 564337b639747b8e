import Verif.Model.MpiDft
import Verif.Model.MpiRadix
import Verif.Model.DftwGenericbuf

/-!
# `mpi/dft-rank1.c`: one-dimensional distributed DFTs by the six-step algorithm
-/

namespace FFTW.Mpi
open Tensor
variable [CLib]

/-- `do_twiddle`, mpi/dft-rank1.c:43-56; `n` is the size of the generator `t`, `P` the array, with `xr = P + roff`, `xi = P + ioff` -/
def doTwiddle (cexp : ℕ → ℤ → ℝ × ℝ) (bwd : Bool) (n ir m vn : ℕ) (P : Ptr) (st : State) : State :=
  forN m (fun im st => forN vn (fun iv st =>
    let x := P + (((im * vn + iv) * 2 : ℕ) : ℤ)
    let c := DftS.trigRotate cexp n ((ir * im : ℕ) : ℤ) (st.mem (x + roff bwd)) (st.mem (x + ioff bwd))
    (st.set (x + roff bwd) c.1).set (x + ioff bwd) c.2) st) st

/-- the loop of `apply_ddft_first`, mpi/dft-rank1.c:103-109, on one process -/
def loopFirst (cexp : ℕ → ℤ → ℝ × ℝ) (bwd : Bool) (n r vn xmin cnt : ℕ) (c : Plan) (dI dO : Ptr) (st : State) : State :=
  forN cnt (fun x st =>
    let I := dI + ((x * (r * vn * 2) : ℕ) : ℤ)
    let O := dO + ((x * (r * vn * 2) : ℕ) : ℤ)
    applyDft bwd c I O (doTwiddle cexp bwd n (xmin + x) r vn I st)) st

/-- the loop of `apply_ddft_last`, mpi/dft-rank1.c:141-145, on one process -/
def loopLast (cexp : ℕ → ℤ → ℝ × ℝ) (bwd : Bool) (n m vn xmin cnt : ℕ) (c : Plan) (dI dO : Ptr) (st : State) : State :=
  forN cnt (fun x st =>
    let I := dI + ((x * (m * vn * 2) : ℕ) : ℤ)
    let O := dO + ((x * (m * vn * 2) : ℕ) : ℤ)
    doTwiddle cexp bwd n (xmin + x) m vn O (applyDft bwd c I O st)) st

/-- `mkplan`, mpi/dft-rank1.c:232-340, `applicable` 152-186, `apply_ddft_first` 81-114 (`first`), `apply_ddft_last` 116-150.  The test of `NO_UGLYP` (180-184) is always true, because the
solver is not both. -/
def rank1Mk (cexp : ℕ → ℤ → ℝ × ℝ) (first preserve : Bool) (p : MDftP) (fl : Flags) : MMk (Option MPlan) :=
  match p.sz with
  | [d] =>
    let c := p.comm
    let n := c.length
    if !(p.flags.onlyScrambled && preserveOk preserve p fl && (!p.flags.scrambledIn || !first) && (!p.flags.scrambledOut || first) && notSlow p fl &&
        (decide (p.vn < n) || decide (p.flags ≠ {}))) then .ret none
    else match chooseRadix d.n n p.bwd with
    | none => .ret none
    | some (r, m) =>
      let rblock := defaultBlock r n
      let mblock := defaultBlock m n
      let rp := if first then r else m
      let mp := if first then m else r
      let mpblock := if first then mblock else rblock
      let pre := preserve || fl.nd
      let plain := decide (p.flags = {})                     -- not scrambled
      let I1 := if first || !pre then p.I else p.O
      .need (.dft (mkDft [⟨mp, mpblock, mpblock⟩] (rp * p.vn) I1 p.O c p.bwd { bigvecOnly := true } p.space)) {} fun ddft =>
      let I2 := if first || plain then p.O else p.I
      let O2 := if pre || (first && !plain) then p.O else p.I
      .needLoc n (fun me => some (dftPr p.bwd [eqDim rp (p.vn * 2)] [eqDim p.vn 2] (I2 (c.at me)) (O2 (c.at me)))) {} fun dft =>
      let cont (cldt : Option MPlan) : MMk (Option MPlan) := .ret <| some fun I O st =>
        if first then
          let st := ddft I O st
          let J := if pre || cldt.isNone then O else I
          let st := c.run (fun me => loopFirst cexp p.bwd (r * m) r p.vn (mblock * me) (Mpi.block m mblock me) (dft me) (O (c.at me)) (J (c.at me))) st
          match cldt with
          | some t => t J O st
          | none => st
        else
          let dI := if cldt.isSome then O else I
          let st := match cldt with
            | some t => t I O st
            | none => st
          let dO := if pre then O else I
          let st := c.run (fun me => loopLast cexp p.bwd (r * m) m p.vn (rblock * me) (Mpi.block r rblock me) (dft me) (dI (c.at me)) (dO (c.at me))) st
          ddft dO O st
      if plain then
        let I3 := if first && pre then p.O else p.I
        .need (.transpose (mkTrans m r (p.vn * 2) I3 p.O mblock rblock c {} p.space)) {} fun t => cont (some t)
      else cont none
  | _ => .ret none

/-- `XM(dft_rank1_register)` -/
def dftRank1 (cexp : ℕ → ℤ → ℝ × ℝ) (first preserve : Bool) : MSolver := dftSolver (rank1Mk cexp first preserve)

end FFTW.Mpi
