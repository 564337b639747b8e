import Verif.Model.Mpi

/-!
# `mpi/transpose-alltoall.c`, `mpi/transpose-pairwise.c`: global transpositions
-/

namespace FFTW.Mpi
open Tensor
variable [CLib]

/-- flags of `X(mkplan_f_d)(plnr, ..., 0, 0, NO_SLOW)` -/
def noSlow : FMod := { ureset := NO_SLOW }

/-- `X(mkproblem_rdft_0_d)`, rdft/problem.c: a copy -/
def rdft0 (vec : List Dim) (I O : Ptr) : Problem := mkproblemRdft [] (some vec) I O

section
variable (p : TransP)

/-- the local block of the first dimension -/
def TransP.b (me : ℕ) : ℕ := Mpi.block p.nx p.block me
/-- the local block of the second dimension -/
def TransP.bt (me : ℕ) : ℕ := Mpi.block p.ny p.tblock me

/-- `transpose b x ny x vn -> ny x b x vn`, mpi/transpose-alltoall.c:179-186 = transpose-pairwise.c:379-386 -/
def preDims (me : ℕ) : List Dim :=
  [⟨p.b me, (p.ny * p.vn : ℕ), p.vn⟩, ⟨p.ny, p.vn, (p.b me * p.vn : ℕ)⟩, ⟨p.vn, 1, 1⟩]

/-- number of equal-sized blocks, mpi/transpose-pairwise.c:279 -/
def TransP.nxb : ℕ := p.nx / p.block
/-- leftover rows after equal blocks, mpi/transpose-pairwise.c:280 -/
def TransP.nxr : ℕ := p.nx - p.nxb * p.block

/-- the case distinction of `XM(mkplans_posttranspose)`, mpi/transpose-pairwise.c:285 -/
def direct (I O : Ptr) : Bool := !p.flags.transposedOut && (decide (p.nxr = 0) || decide (I ≠ O))

/-- `*cld2`, mpi/transpose-pairwise.c:288-294 and 313-321 -/
def cld2Dims (d : Bool) (me : ℕ) : List Dim :=
  let bt := p.bt me
  if d then
    let b := p.block * p.vn
    [⟨p.nxb, (bt * b : ℕ), b⟩, ⟨bt, b, (p.nx * p.vn : ℕ)⟩, ⟨b, 1, 1⟩]
  else
    let b := p.block
    [⟨p.nxb, (bt * b * p.vn : ℕ), (bt * b * p.vn : ℕ)⟩, ⟨bt, (b * p.vn : ℕ), p.vn⟩, ⟨b, p.vn, (bt * p.vn : ℕ)⟩, ⟨p.vn, 1, 1⟩]

/-- `*rest_Ioff`, mpi/transpose-pairwise.c:298, 324 -/
def restIoff (me : ℕ) : ℕ := p.nxb * p.bt me * (p.block * p.vn)
/-- `*rest_Ooff`, mpi/transpose-pairwise.c:299, 324 -/
def restOoff (d : Bool) (me : ℕ) : ℕ := if d then p.nxb * (p.block * p.vn) else p.nxb * p.bt me * (p.block * p.vn)

/-- whether there is a `*cld2rest`, mpi/transpose-pairwise.c:297, 325 -/
def hasRest (d : Bool) : Bool := !d || decide (p.nxr > 0)

/-- `*cld2rest`, mpi/transpose-pairwise.c:300-307, 325-332 -/
def restDims (d : Bool) (me : ℕ) : List Dim :=
  let bt := p.bt me
  if d then
    let b := p.nxr * p.vn
    [⟨bt, b, (p.nx * p.vn : ℕ)⟩, ⟨b, 1, 1⟩]
  else [⟨bt, (p.nxr * p.vn : ℕ), p.vn⟩, ⟨p.nxr, p.vn, (bt * p.vn : ℕ)⟩, ⟨p.vn, 1, 1⟩]

/-- whether there is a `*cld3`, mpi/transpose-pairwise.c:335 -/
def hasCld3 (d : Bool) : Bool := !d && !p.flags.transposedOut

/-- `*cld3`, mpi/transpose-pairwise.c:336-343 -/
def cld3Dims (me : ℕ) : List Dim :=
  let bt := p.bt me
  [⟨p.nx, (bt * p.vn : ℕ), p.vn⟩, ⟨bt, p.vn, (p.nx * p.vn : ℕ)⟩, ⟨p.vn, 1, 1⟩]

/-- plans for the local transposition after the exchange -/
structure Post where
  cld2 : ℕ → Plan
  rest : ℕ → Plan
  cld3 : ℕ → Plan

/-- `XM(mkplans_posttranspose)`, mpi/transpose-pairwise.c:271-355, on all processes; the three `goto nada`s of one process and the `XM(any_true)` after
the call are modelled by giving up at once -/
def mkplansPost {α : Type} (I O : ℕ → Ptr) (k : Post → MMk (Option α)) : MMk (Option α) :=
  let n := p.comm.length
  let I' := fun me => I (p.comm.at me)
  let O' := fun me => O (p.comm.at me)
  let d := fun me => direct p (I' me) (O' me)
  .needLoc n (fun me => some (rdft0 (cld2Dims p (d me) me) (I' me) (O' me))) noSlow fun cld2 =>
  .needLoc n (fun me => if hasRest p (d me) then
      some (rdft0 (restDims p (d me) me) (I' me + (restIoff p me : ℤ)) (O' me + (restOoff p (d me) me : ℤ))) else none) noSlow fun rest =>
  .needLoc n (fun me => if hasCld3 p (d me) then some (rdft0 (cld3Dims p me) (O' me) (O' me)) else none) noSlow fun cld3 =>
  k ⟨cld2, rest, cld3⟩

/-- the local transpositions at the end of `apply`, mpi/transpose-alltoall.c:79-92 = transpose-pairwise.c:134-146, on the process of rank `me`.
`d` is the case distinction made by the planner. -/
def Post.apply (c : Post) (d : Bool) (me : ℕ) (I O : Ptr) (st : State) : State :=
  let st := (c.cld2 me).rdftApply I O st
  if hasRest p d then
    let st := (c.rest me).rdftApply (I + (restIoff p me : ℤ)) (O + (restOoff p d me : ℤ)) st
    if hasCld3 p d then (c.cld3 me).rdftApply O O st else st
  else st

/-- `sbs[pe]` of process `me`, mpi/transpose-alltoall.c:218-224 -/
def TransP.sbs (me pe : ℕ) : ℕ := p.b me * p.bt pe * p.vn
/-- `sbo[pe]` of process `me`, mpi/transpose-alltoall.c:225 -/
def TransP.sbo (me pe : ℕ) : ℕ := pe * (p.b me * p.tblock) * p.vn
/-- `rbs[pe]` of process `me`, mpi/transpose-alltoall.c:226 -/
def TransP.rbs (me pe : ℕ) : ℕ := p.b pe * p.bt me * p.vn
/-- `rbo[pe]` of process `me`, mpi/transpose-alltoall.c:227 -/
def TransP.rbo (me pe : ℕ) : ℕ := pe * (p.block * p.bt me) * p.vn

/-- `equal_blocks`, mpi/transpose-alltoall.c:215-219 -/
def TransP.equalBlocks : Bool := (List.range p.comm.length).all fun pe => decide (p.b pe = p.block) && decide (p.bt pe = p.tblock)
end

/-- the block of a receive buffer position `x` belongs to -/
def recvFrom (n : ℕ) (rbs rbo : ℕ → ℕ) (x : ℤ) : Option ℕ :=
  (List.range n).find? fun q => decide ((rbo q : ℤ) ≤ x ∧ x < rbo q + rbs q)

/-- no process's send and receive buffers overlap -/
def NoAlias (comm : Comm) (sbs sbo rbs rbo : ℕ → ℕ → ℕ) (S R : ℕ → Ptr) : Prop :=
  ∀ me < comm.length, ∀ q < comm.length, ∀ r < comm.length, ∀ x < sbs me q, ∀ y < rbs me r,
    S (comm.at me) + ((sbo me q + x : ℕ) : ℤ) ≠ R (comm.at me) + ((rbo me r + y : ℕ) : ℤ)

open Classical in
/-- `MPI_Alltoallv(S, sbs, sbo, type, R, rbs, rbo, type, comm)`; the argument arrays of process `me` are `sbs me` and so on.  It is an MPI error
if the counts of sender and receiver differ or the send and receive buffers of a process overlap: here nothing is transferred then. -/
noncomputable def alltoallv (comm : Comm) (sbs sbo rbs rbo : ℕ → ℕ → ℕ) (S R : ℕ → Ptr) (st : Dist) : Dist :=
  if (∀ q < comm.length, ∀ r < comm.length, sbs q r = rbs r q) ∧ NoAlias comm sbs sbo rbs rbo S R then
    fun w => if w ∈ comm then
      let r := comm.idxOf w
      { st w with mem := fun a =>
          if a.blk = (R w).blk then
            match recvFrom comm.length (rbs r) (rbo r) (a.off - (R w).off) with
            | some q => (st (comm.at q)).mem (S (comm.at q) + ((sbo q r : ℤ) + ((a.off - (R w).off) - (rbo r q : ℤ))))
            | none => (st w).mem a
          else (st w).mem a }
      else st w
  else st

/-- `MPI_Alltoall(S, s, type, R, r, type, comm)` -/
noncomputable def alltoall (comm : Comm) (s r : ℕ → ℕ) (S R : ℕ → Ptr) (st : Dist) : Dist :=
  alltoallv comm (fun me _ => s me) (fun me pe => pe * s me) (fun me _ => r me) (fun me pe => pe * r me) S R st

/-- `transpose chunks globally`, mpi/transpose-alltoall.c:57-67 -/
noncomputable def exchangeAll (p : TransP) (S R : ℕ → Ptr) (st : Dist) : Dist :=
  if p.equalBlocks then alltoall p.comm (fun me => p.sbs me 0) (fun me => p.rbs me 0) S R st
  else alltoallv p.comm p.sbs p.sbo p.rbs p.rbo S R st

/-- `applicable`, mpi/transpose-alltoall.c:98-109 -/
def alltoallApplicable (copyIn : Bool) (p : TransP) (fl : Flags) : Bool :=
  decide (¬ p.inpl) && (!fl.nd || (p.flags.transposedIn && !copyIn)) && (p.flags.transposedIn || !copyIn) && p.flags.onlyTransposed

/-- `mkplan` and `apply`, mpi/transpose-alltoall.c:139-250, 48-93; `copyIn` is the solver's `copy_transposed_in` -/
noncomputable def alltoallMk (copyIn : Bool) (p : TransP) (fl : Flags) : MMk (Option MPlan) :=
  let n := p.comm.length
  let c := p.comm
  if !alltoallApplicable copyIn p fl then .ret none
  else if p.flags.transposedIn && !copyIn then
    mkplansPost p p.O p.O fun post => .ret <| some fun I O st =>
      let st := exchangeAll p I O st
      c.run (fun me => post.apply p (direct p (p.O (c.at me)) (p.O (c.at me))) me (O (c.at me)) (O (c.at me))) st
  else
    .needLoc n (fun me => some (rdft0 (if p.flags.transposedIn then [⟨p.b me * p.ny * p.vn, 1, 1⟩] else preDims p me)
      (p.I (c.at me)) (p.O (c.at me)))) noSlow fun cld1 =>
    mkplansPost p p.I p.O fun post => .ret <| some fun I O st =>
      let st := c.run (fun me => (cld1 me).rdftApply (I (c.at me)) (O (c.at me))) st
      let st := exchangeAll p O I st
      c.run (fun me => post.apply p (direct p (p.I (c.at me)) (p.O (c.at me))) me (I (c.at me)) (O (c.at me))) st

/-- `XM(transpose_alltoall_register)`, mpi/transpose-alltoall.c:261-266 -/
noncomputable def transposeAlltoall (copyIn : Bool) : MSolver := transSolver (alltoallMk copyIn)

/-- the sizes as used by the model of the pairwise exchange -/
def TransP.toProb (p : TransP) : MpiExchange.Prob := ⟨p.nx, p.ny, p.vn, p.block, p.tblock⟩

/-- contents of the arrays `P` of all processes, indexed by rank and offset -/
def arrays (c : Comm) (P : ℕ → Ptr) (st : Dist) (r a : ℤ) : ℝ := (st (c.at r.toNat)).mem (P (c.at r.toNat) + a)

/-- the inverse: store them -/
def storeArrays (c : Comm) (P : ℕ → Ptr) (m : ℤ → ℤ → ℝ) (st : Dist) : Dist :=
  c.run (fun r s => { s with mem := fun a => if a.blk = (P (c.at r)).blk then m r (a.off - (P (c.at r)).off) else s.mem a }) st

/-- one step of `transpose_chunks`, `I != O` branch (mpi/transpose-pairwise.c:82-95), on process `w` whose partner is `q`: `src` is `I`, `dst` is `O`.
Simplification: what is sent is read from the initial contents of `I` (which does not overlap `O`). -/
def recvStep2 {α : Type} (p : MpiExchange.Prob) (src dst : ℤ → ℤ → α) (w q a : ℤ) : α :=
  if MpiExchange.rbo p w q ≤ a ∧ a < MpiExchange.rbo p w q + MpiExchange.sbs p q w then src q (MpiExchange.sbo p q w + (a - MpiExchange.rbo p w q))
  else dst w a

/-- all steps of all processes, in lock step; stuck if two processes do not address each other or a message is longer than its receive count -/
def exchange2 {α : Type} (p : MpiExchange.Prob) (npes : ℕ) (sched : ℕ → List ℤ) (src : ℤ → ℤ → α) : ℕ → ℕ → (ℤ → ℤ → α) → C (ℤ → ℤ → α)
  | 0, _, dst => some dst
  | k + 1, s, dst => do
    let part := fun w : ℕ => (sched w).getD s (-1)
    if (∀ w : Fin npes, 0 ≤ part w ∧ part w < npes ∧ part (part w).toNat = (w : ℤ) ∧ MpiExchange.sbs p (part w) w ≤ MpiExchange.rbs p w (part w)) then
      exchange2 p npes sched src k (s + 1) fun w a => if 0 ≤ w ∧ w < npes then recvStep2 p src dst w (part w.toNat) a else dst w a
    else none

/-- `transpose_chunks`, mpi/transpose-pairwise.c:48-98, on all processes (processes with a rank of at least `n_pes` have no schedule and do
nothing).  The test `I == O` is the one of the process of rank 0.  A deadlock is modelled by leaving everything as it was. -/
def transposeChunks (p : TransP) (junk : ℕ → List ℤ) (S R : ℕ → Ptr) (st : Dist) : Dist :=
  let pr := p.toProb
  let src := arrays p.comm S st
  let dst := arrays p.comm R st
  let r := if S (p.comm.at 0) = R (p.comm.at 0) then MpiExchange.transposeChunks pr junk dst
    else (MpiExchange.schedules pr junk).bind fun scheds => exchange2 pr (MpiExchange.nPes pr) (fun w => scheds.getD w []) src (MpiExchange.nPes pr) 0 dst
  match r with
  | some m => storeArrays p.comm R m st
  | none => st

/-- `applicable`, mpi/transpose-pairwise.c:149-160 -/
def pairwiseApplicable (preserve : Bool) (p : TransP) (fl : Flags) : Bool :=
  (!preserve || (!fl.nd && decide (¬ p.inpl))) && p.flags.onlyTransposed

/-- `mkplan` and `apply`, mpi/transpose-pairwise.c:357-484, 100-147.  `preserve` is the solver's `preserve_input`. -/
def pairwiseMk (junk : ℕ → List ℤ) (preserve : Bool) (p : TransP) (fl : Flags) : MMk (Option MPlan) :=
  let n := p.comm.length
  let c := p.comm
  if !pairwiseApplicable preserve p fl then .ret none
  else
    let pre := preserve || fl.nd              -- pln->preserve_input
    let I' := if pre then p.O else p.I
    let post' := fun (post : Post) (I O : ℕ → Ptr) =>
      c.run fun me => post.apply p (direct p (I' (c.at me)) (p.O (c.at me))) me (I (c.at me)) (O (c.at me))
    if !p.flags.transposedIn then
      .needLoc n (fun me => some (rdft0 (preDims p me) (p.I (c.at me)) (p.O (c.at me)))) noSlow fun cld1 =>
      mkplansPost p I' p.O fun post => .ret <| some fun I O st =>
        let st := c.run (fun me => (cld1 me).rdftApply (I (c.at me)) (O (c.at me))) st
        let I := if pre then O else I
        let st := transposeChunks p junk O I st
        post' post I O st
    else
      mkplansPost p I' p.O fun post => .ret <| some fun I O st =>
        if pre then post' post O O (transposeChunks p junk I O st)
        else post' post I O (transposeChunks p junk I I st)

/-- `XM(transpose_pairwise_register)`, mpi/transpose-pairwise.c:496-501; `junk`: what is in the uninitialised array of `sort1_comm_sched` -/
def transposePairwise (junk : TransP → ℕ → List ℤ) (preserve : Bool) : MSolver := transSolver fun p => pairwiseMk (junk p) preserve p

end FFTW.Mpi
