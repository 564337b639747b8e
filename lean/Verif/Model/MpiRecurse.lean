import Verif.Model.MpiTranspose
import Verif.Model.Primes

/-!
# `mpi/transpose-recurse.c`: global transposition in two steps, over groups of processes
-/

namespace FFTW.Mpi
open Tensor
variable [CLib]

/-- the loop `for (; np % r != 0; ++r)`; `0` when nothing is found after `fuel` steps -/
def divisorFrom (np : ℕ) : ℕ → ℕ → ℕ
  | 0, _ => 0
  | fuel + 1, r => if np % r ≠ 0 then divisorFrom np fuel (r + 1) else r

/-- `radix_sqrt`, mpi/transpose-recurse.c:74-80 -/
def radixSqrt (np : ℕ) : ℕ := divisorFrom np (np + 1) ((Primes.isqrt np).getD 0).toNat

/-- `radix_first`, mpi/transpose-recurse.c:82-86 -/
def radixFirst (np : ℕ) : ℕ :=
  let r := ((Primes.firstDivisor np).getD 0).toNat
  if r ≥ ((Primes.isqrt np).getD 0).toNat then 0 else r

/-- `transpose_space`, mpi/transpose-recurse.c:90-94 -/
def transposeSpace (nx ny block tblock pe : ℕ) : ℕ := max (Mpi.block nx block pe * ny) (nx * Mpi.block ny tblock pe)

/-- `enough_space`, mpi/transpose-recurse.c:99-114 -/
def enoughSpace (nx ny block tblock r npes : ℕ) : Bool :=
  let m := npes / r
  (List.range npes).all fun pe =>
    let space := transposeSpace nx ny block tblock pe
    let b1 := Mpi.block nx (r * block) (pe / r)
    let b2 := Mpi.block ny (m * tblock) (pe % r)
    !(decide (transposeSpace b1 ny block (m * tblock) (pe % r) > space) || decide (transposeSpace nx b2 (r * block) tblock (pe / r) > space))

/-- which of the two radices a solver uses, mpi/transpose-recurse.c:293-300 -/
inductive Radix
  | sqrt
  | first

/-- the radix -/
def Radix.of : Radix → ℕ → ℕ
  | .sqrt, np => radixSqrt np
  | .first, np => radixFirst np

/-- `applicable`, mpi/transpose-recurse.c:124-142.  `heur` stands for the tests of `CONSERVE_MEMORYP` and `NO_SLOWP`, which depend on the size only. -/
def recurseApplicable (rx : Radix) (preserve heur : Bool) (p : TransP) (fl : Flags) : Bool :=
  let np := p.comm.length
  let r := rx.of np
  decide (p.tblock * np = p.ny) && (!preserve || (!fl.nd && decide (¬ p.inpl))) && decide (r ≠ 0) && decide (r < np) && decide (r > 1) &&
    enoughSpace p.nx p.ny p.block p.tblock r np && heur && p.flags.onlyTransposed

/-- `cld1`, mpi/transpose-recurse.c:199-236: which permutation is made on process `me` (`inpl`: `I == O`) -/
def recurse1Dims (p : TransP) (r m : ℕ) (inpl : Bool) (me : ℕ) : List Dim :=
  let b := p.b me
  if p.flags.transposedIn then
    let vn := p.vn * b * p.tblock
    [⟨m, (r * vn : ℕ), vn⟩, ⟨r, vn, (m * vn : ℕ)⟩, ⟨vn, 1, 1⟩]
  else if !inpl then
    let vn := p.vn
    let bt := p.tblock
    [⟨b, (m * r * bt * vn : ℕ), vn⟩, ⟨m, (r * bt * vn : ℕ), (bt * b * vn : ℕ)⟩, ⟨r, (bt * vn : ℕ), (m * bt * b * vn : ℕ)⟩, ⟨bt, vn, (b * vn : ℕ)⟩, ⟨vn, 1, 1⟩]
  else
    let vn := p.vn * p.tblock
    [⟨m, (r * vn : ℕ), vn⟩, ⟨r, vn, (m * vn : ℕ)⟩, ⟨vn, 1, 1⟩, ⟨b, (p.comm.length * vn : ℕ), (p.comm.length * vn : ℕ)⟩]

/-- `cldtr`, mpi/transpose-recurse.c:240-248, for the group of processes with `me / r = x`; `I` is `O` if the input is preserved -/
def recurseTr (p : TransP) (r m : ℕ) (I : ℕ → Ptr) (x : ℕ) : Option MProblem :=
  let b := Mpi.block p.nx (r * p.block) x
  if b ≠ 0 then
    some (.transpose (mkTrans b p.ny p.vn p.O I p.block (m * p.tblock) (p.comm.split (fun me => me / r) x)
      { transposedIn := if ¬ p.inpl then true else p.flags.transposedIn } p.space))
  else none

/-- `cldtm`, mpi/transpose-recurse.c:251-258, for the group of processes with `me % r = x` -/
def recurseTm (p : TransP) (r m : ℕ) (I : ℕ → Ptr) (x : ℕ) : Option MProblem :=
  let b := Mpi.block p.ny (m * p.tblock) x
  if b ≠ 0 then
    some (.transpose (mkTrans p.nx b p.vn I p.O (r * p.block) p.tblock (p.comm.split (fun me => me % r) x)
      { transposedIn := true, transposedOut := p.flags.transposedOut } p.space))
  else none

/-- every group of processes executes its plan, if it has one; the groups are disjoint, so that it does not matter in which order -/
def runGroups : ℕ → (ℕ → Dist → Dist) → Dist → Dist
  | 0, _, st => st
  | n + 1, f, st => f n (runGroups n f st)

/-- `mkplan` and `apply`, mpi/transpose-recurse.c:168-280, 57-72; `preserve` is the solver's `preserve_input` -/
def recurseMk (rx : Radix) (preserve heur : Bool) (p : TransP) (fl : Flags) : MMk (Option MPlan) :=
  let np := p.comm.length
  let c := p.comm
  if !recurseApplicable rx preserve heur p fl then .ret none
  else
    let r := rx.of np
    let m := np / r
    let inpl := fun me => decide (p.I (c.at me) = p.O (c.at me))
    .needLoc np (fun me => some (rdft0 (recurse1Dims p r m (inpl me) me) (p.I (c.at me)) (p.O (c.at me)))) noSlow fun cld1 =>
    let pre := preserve || fl.nd
    let I' := if pre then p.O else p.I
    .needGrp m (recurseTr p r m I') {} fun cldtr =>
    .needGrp r (recurseTm p r m I') {} fun cldtm =>
    .ret <| some fun I O st =>
      let st := c.run (fun me => (cld1 me).rdftApply (I (c.at me)) (O (c.at me))) st
      let I := if pre then O else I
      let st := runGroups m (fun x st => if (recurseTr p r m I' x).isSome then cldtr x O I st else st) st
      runGroups r (fun x st => if (recurseTm p r m I' x).isSome then cldtm x I O st else st) st

/-- `XM(transpose_recurse_register)`, mpi/transpose-recurse.c:293-300 -/
def transposeRecurse (rx : Radix) (preserve : Bool) (heur : TransP → Flags → Bool) : MSolver :=
  transSolver fun p fl => recurseMk rx preserve (heur p fl) p fl

end FFTW.Mpi
