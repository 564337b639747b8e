import Verif.Spec.Mpi
import Verif.Model.MpiRadix
import Verif.Model.Htab

/-!
# Sound MPI solvers

The contracts of distributed complex DFTs and real-to-real transforms, and what it means that an MPI solver is right.
-/

namespace FFTW.Mpi
open Tensor Spec

/-- Place of the element with index `k` of an array all of whose dimensions `(n, b)` are distributed by blocks of `b`: the rank of the process, and
the position among the elements of that process.  Processes are numbered by their block coordinates, and each process stores its elements, in
row-major order of the indices. -/
def placeFrom : ℕ → ℕ → List (ℕ × ℕ) → List ℕ → ℕ × ℕ
  | r, l, (n, b) :: D, k :: ks => placeFrom (r * numBlocks n b + k / b) (l * Mpi.block n b (k / b) + k % b) D ks
  | r, l, _, _ => (r, l)
/-- the same -/
def place (D : List (ℕ × ℕ)) (k : List ℕ) : ℕ × ℕ := placeFrom 0 0 D k

/-- how many elements the process of rank `r` has -/
def localSize : List (ℕ × ℕ) → ℕ → ℕ
  | [], r => if r = 0 then 1 else 0
  | (n, b) :: D, r =>
    let m := (D.map fun d => numBlocks d.1 d.2).prod
    Mpi.block n b (r / m) * localSize D (r % m)

/-- exchange the first two -/
def swap2 {α : Type} : List α → List α
  | a :: b :: l => b :: a :: l
  | l => l

/-- distribution of the input -/
def MDftP.inD (p : MDftP) : List (ℕ × ℕ) := p.sz.map fun d => (d.n, d.ib)
/-- distribution of the output: `TRANSPOSED_OUT` exchanges the first two dimensions -/
def MDftP.outD (p : MDftP) : List (ℕ × ℕ) :=
  if p.flags.transposedOut then swap2 (p.sz.map fun d => (d.n, d.ob)) else p.sz.map fun d => (d.n, d.ob)

/-- One-dimensional transforms with less than one vector element for each process, or with scrambled data, have a distribution of their own, which `XM(choose_radix)` chooses
(mpi/api.c:318-340, mpi/dft-rank1.c; the user learns it from `fftw_mpi_local_size_1d`): the size is `r * m`.  Not if all of the data is meant to be on one process. -/
def MDftP.sixStep (p : MDftP) : Option (ℕ × ℕ) :=
  match p.sz with
  | [d] =>
    if p.flags.onlyScrambled = true ∧ (p.vn < p.comm.length ∨ p.flags ≠ {}) ∧ ¬ (p.flags = {} ∧ d.ib = d.n ∧ d.ob = d.n) then chooseRadix d.n p.comm.length p.bwd
    else none
  | _ => none

/-- place of element `(i, j)` of a matrix with `b` columns whose rows are distributed by blocks of `blk` -/
def cell (b blk i j : ℕ) : ℕ × ℕ := (i / blk, i % blk * b + j)

/-- place of an element of the input.  Six-step algorithm: `j = jm * r + jr` is element `(jm, jr)` of an `m × r` matrix, or, `SCRAMBLED_IN`, element `(jr, jm)` of an `r × m` matrix -/
def MDftP.inAt (p : MDftP) (j : List ℕ) : ℕ × ℕ :=
  match p.sixStep, j with
  | some (r, m), [j] => if p.flags.scrambledIn then cell m (defaultBlock r p.comm.length) (j % r) (j / r) else cell r (defaultBlock m p.comm.length) (j / r) (j % r)
  | _, _ => place p.inD j
/-- place of an element of the output.  Six-step algorithm: `k = kr * m + km` is element `(kr, km)` of an `r × m` matrix, or, `SCRAMBLED_OUT`, element `(km, kr)` of an `m × r` matrix -/
def MDftP.outAt (p : MDftP) (k : List ℕ) : ℕ × ℕ :=
  match p.sixStep, k with
  | some (r, m), [k] => if p.flags.scrambledOut then cell r (defaultBlock m p.comm.length) (k % m) (k / m) else cell m (defaultBlock r p.comm.length) (k / m) (k % m)
  | _, _ => place p.outD (if p.flags.transposedOut then swap2 k else k)

/-- how many elements of the input the process of rank `me` has -/
def MDftP.inSize (p : MDftP) (me : ℕ) : ℕ :=
  match p.sixStep with
  | some (r, m) => if p.flags.scrambledIn then Mpi.block r (defaultBlock r p.comm.length) me * m else Mpi.block m (defaultBlock m p.comm.length) me * r
  | none => localSize p.inD me
/-- the same for the output -/
def MDftP.outSize (p : MDftP) (me : ℕ) : ℕ :=
  match p.sixStep with
  | some (r, m) => if p.flags.scrambledOut then Mpi.block m (defaultBlock m p.comm.length) me * r else Mpi.block r (defaultBlock r p.comm.length) me * m
  | none => localSize p.outD me

/-- `k` is an index vector of an array with dimensions `ns` -/
def Index (ns k : List ℕ) : Prop := List.Forall₂ (fun i n => i < n) k ns

/-- the multidimensional DFT of `x` at `k` -/
noncomputable def dftSum : List ℕ → List ℕ → (List ℕ → ℂ) → ℂ
  | n :: ns, k :: ks, x => ∑ j ∈ Finset.range n, dftK () n j k * dftSum ns ks fun js => x (j :: js)
  | _, _, x => x []

/-- component `v` of the `vn`-tuple at a place: `X(extract_reim)` (api/extract-reim.c:26-36) makes the backward transform a forward transform of
numbers with real and imaginary parts exchanged -/
noncomputable def elt (bwd : Bool) (vn : ℕ) (comm : Comm) (P : ℕ → Ptr) (st : Dist) (pl : ℕ × ℕ) (v : ℕ) : ℂ :=
  let q := P (comm.at pl.1) + (((pl.2 * vn + v) * 2 : ℕ) : ℤ)
  let m := (st (comm.at pl.1)).mem
  if bwd then ⟨m (q + (1 : ℤ)), m q⟩ else ⟨m q, m (q + (1 : ℤ))⟩

/-- a plan computes a distributed DFT -/
def DOK (nd : Bool) (p : MDftP) (f : MPlan) : Prop :=
  ∀ I O st, MCompat p.comm p.space p.inpl I O st → MFrame p.comm p.space nd I O st (f I O st) ∧
    ∀ k, Index (p.sz.map fun d => d.n) k → ∀ v < p.vn,
      elt p.bwd p.vn p.comm O (f I O st) (p.outAt k) v =
        dftSum (p.sz.map fun d => d.n) k fun j => elt p.bwd p.vn p.comm I st (p.inAt j) v

/-- all of the data is on the process of rank 0, before and after -/
def MDftP.oneProcess (p : MDftP) : Prop := p.flags = {} ∧ ∀ e ∈ p.sz, e.ib = e.n ∧ e.ob = e.n

/-- DFTs the planner with the flags `fl` may be asked for: distinct processes, at least one dimension (mpi/dft-serial.c:93 fails otherwise), no trivial dimensions, enough processes
(the assertion of mpi/dft-problem.c:96-97), blocks not larger than the dimension, and arrays with room for the local parts of input and output and of intermediate results
(mpi/api.c:275-345 computes these sizes). -/
structure MDftP.Ok (fl : Flags) (p : MDftP) : Prop where
  nodup : p.comm.Nodup
  rnk : p.sz ≠ []
  vnpos : 0 < p.vn
  pos : ∀ d ∈ p.sz, 1 < d.n ∧ 0 < d.ib ∧ d.ib ≤ d.n ∧ 0 < d.ob ∧ d.ob ≤ d.n
  pes : (p.sz.map fun d => numBlocks d.n d.ib).prod ≤ p.comm.length
  pesOut : (p.sz.map fun d => numBlocks d.n d.ob).prod ≤ p.comm.length
  roomIn : ∀ r < p.comm.length, p.inSize r * p.vn * 2 ≤ p.space (p.comm.at r)
  roomOut : ∀ r < p.comm.length, p.outSize r * p.vn * 2 ≤ p.space (p.comm.at r)
  /-- the first dimension is transformed between two transpositions (mpi/dft-rank1-bigvec.c): room for the data while it is local -/
  roomMid : (p.oneProcess → fl.l &&& NO_SLOW = 0) → { p.flags with bigvecOnly := false } = ({} : MFlags) → ∀ d l, p.sz = d :: l → (∀ e ∈ l, e.ib = e.n ∧ e.ob = e.n) →
    (l = [] → p.comm.length ≤ p.vn ∨ p.flags.bigvecOnly = true) → ∀ r < p.comm.length,
      d.n * Mpi.block ((l.map DDim.n).prod * p.vn) (defaultBlock ((l.map DDim.n).prod * p.vn) p.comm.length) r * 2 ≤ p.space (p.comm.at r)
  /-- six-step algorithm; `mpi/dft-rank1.c` plans the transform of one row on all processes, also on those that have none -/
  roomSix : ∀ r m, p.sixStep = some (r, m) → (p.flags.scrambledIn = false ∨ p.flags.scrambledOut = false) → ∀ me < p.comm.length,
    Mpi.block m (defaultBlock m p.comm.length) me * r * p.vn * 2 ≤ p.space (p.comm.at me) ∧
    Mpi.block r (defaultBlock r p.comm.length) me * m * p.vn * 2 ≤ p.space (p.comm.at me) ∧
    (p.flags.scrambledIn = false → m * Mpi.block (r * p.vn) (defaultBlock (r * p.vn) p.comm.length) me * 2 ≤ p.space (p.comm.at me) ∧ r * p.vn * 2 ≤ p.space (p.comm.at me)) ∧
    (p.flags.scrambledOut = false → r * Mpi.block (m * p.vn) (defaultBlock (m * p.vn) p.comm.length) me * 2 ≤ p.space (p.comm.at me) ∧ m * p.vn * 2 ≤ p.space (p.comm.at me))
  /-- data on one process is left there: with `FFTW_EXHAUSTIVE` (no `NO_SLOW`) the planner may also use mpi/dft-rank1.c, which distributes it -/
  clear : p.oneProcess → fl.l &&& NO_SLOW = 0 → ∀ d, p.sz = [d] → p.vn < p.comm.length → chooseRadix d.n p.comm.length p.bwd = none
  apart : MApart p.comm p.space p.inpl p.I p.O

/-! ### real-to-real transforms -/

/-- distribution of the input -/
def MRdftP.inD (p : MRdftP) : List (ℕ × ℕ) := p.sz.map fun d => (d.n, d.ib)
/-- distribution of the output: `TRANSPOSED_OUT` exchanges the first two dimensions -/
def MRdftP.outD (p : MRdftP) : List (ℕ × ℕ) :=
  if p.flags.transposedOut then swap2 (p.sz.map fun d => (d.n, d.ob)) else p.sz.map fun d => (d.n, d.ob)
/-- place of an element of the input -/
def MRdftP.inAt (p : MRdftP) (j : List ℕ) : ℕ × ℕ := place p.inD j
/-- place of an element of the output -/
def MRdftP.outAt (p : MRdftP) (k : List ℕ) : ℕ × ℕ := place p.outD (if p.flags.transposedOut then swap2 k else k)

/-- component `v` of the `vn`-tuple of real numbers at a place -/
noncomputable def relt (vn : ℕ) (comm : Comm) (P : ℕ → Ptr) (st : Dist) (pl : ℕ × ℕ) (v : ℕ) : ℝ :=
  (st (comm.at pl.1)).mem (P (comm.at pl.1) + ((pl.2 * vn + v : ℕ) : ℤ))

/-- the multidimensional real-to-real transform of `x` at `k`, with a kind for each dimension -/
noncomputable def r2rSum : List ℕ → List RKind → List ℕ → (List ℕ → ℝ) → ℝ
  | n :: ns, kd :: kds, k :: ks, x => ∑ j ∈ Finset.range n, rK kd n j k * r2rSum ns kds ks fun js => x (j :: js)
  | _, _, _, x => x []

/-- a plan computes a distributed real-to-real transform -/
def ROK (nd : Bool) (p : MRdftP) (f : MPlan) : Prop :=
  ∀ I O st, MCompat p.comm p.space p.inpl I O st → MFrame p.comm p.space nd I O st (f I O st) ∧
    ∀ k, Index (p.sz.map fun d => d.n) k → ∀ v < p.vn,
      relt p.vn p.comm O (f I O st) (p.outAt k) v =
        r2rSum (p.sz.map fun d => d.n) p.kind k fun j => relt p.vn p.comm I st (p.inAt j) v

/-- all of the data is on the process of rank 0, before and after -/
def MRdftP.oneProcess (p : MRdftP) : Prop := p.flags = {} ∧ ∀ e ∈ p.sz, e.ib = e.n ∧ e.ob = e.n

/-- real-to-real transforms the planner with the flags `fl` may be asked for: distinct processes, at least one dimension, a kind for each, enough processes
(the assertion of mpi/rdft-problem.c:96-97), blocks not larger than the dimension, and arrays with room for the local parts of input and output and of intermediate results -/
structure MRdftP.Ok (fl : Flags) (p : MRdftP) : Prop where
  nodup : p.comm.Nodup
  rnk : p.sz ≠ []
  kinds : p.kind.length = p.sz.length
  vnpos : 0 < p.vn
  pos : ∀ d ∈ p.sz, 0 < d.n ∧ 0 < d.ib ∧ d.ib ≤ d.n ∧ 0 < d.ob ∧ d.ob ≤ d.n
  pes : (p.sz.map fun d => numBlocks d.n d.ib).prod ≤ p.comm.length
  pesOut : (p.sz.map fun d => numBlocks d.n d.ob).prod ≤ p.comm.length
  roomIn : ∀ r < p.comm.length, localSize p.inD r * p.vn ≤ p.space (p.comm.at r)
  roomOut : ∀ r < p.comm.length, localSize p.outD r * p.vn ≤ p.space (p.comm.at r)
  /-- the first dimension is transformed between two transpositions (mpi/rdft-rank1-bigvec.c): room for the data while it is local -/
  roomMid : (p.oneProcess → fl.l &&& NO_SLOW = 0) → { p.flags with bigvecOnly := false } = ({} : MFlags) → ∀ d l, p.sz = d :: l → (∀ e ∈ l, e.ib = e.n ∧ e.ob = e.n) →
    ∀ r < p.comm.length, d.n * Mpi.block ((l.map DDim.n).prod * p.vn) (defaultBlock ((l.map DDim.n).prod * p.vn) p.comm.length) r ≤ p.space (p.comm.at r)
  apart : MApart p.comm p.space p.inpl p.I p.O

/-- problems the planner with flags `fl` may be asked for -/
def MKosher (fl : Flags) : MProblem → Prop
  | .transpose p => p.Ok
  | .dft p => p.Ok fl
  | .rdft p => p.Ok fl

/-- a plan does what its problem asks for -/
def MSound (nd : Bool) : MProblem → MPlan → Prop
  | .transpose p, f => TOK nd p f
  | .dft p, f => DOK nd p f
  | .rdft p, f => ROK nd p f

/-- a program that asks the planner only for admissible problems, and whose result satisfies `Q` whatever sound plans it gets (or does not get) -/
def MMk.Good {α : Type} (fl : Flags) (Q : α → Prop) : MMk α → Prop
  | .ret a => Q a
  | .loc n p m k => (∀ me < n, ∀ x, p me = some x → Kosher x) ∧
      ∀ r : Option (ℕ → Plan), (∀ c, r = some c → ∀ me < n, ∀ x, p me = some x → Sound (fl.modify m).nd x (c me)) → (k r).Good fl Q
  | .grp n p m k => (∀ me < n, ∀ x, p me = some x → MKosher (fl.modify m) x) ∧
      ∀ r : Option (ℕ → MPlan), (∀ c, r = some c → ∀ me < n, ∀ x, p me = some x → MSound (fl.modify m).nd x (c me)) → (k r).Good fl Q

/-- a sound MPI solver returns only sound plans, provided its child plans are sound -/
def MSolver.Sound (s : MSolver) : Prop :=
  ∀ p fl, MKosher fl p → (s.mkplan p fl).Good fl fun r => ∀ f, r = some f → MSound fl.nd p f

/-- runs of a program: serial plans come from `A`, plans for MPI problems from `B`; at any time the planner may also find none -/
inductive MMk.Runs {α : Type} (A : Flags → Problem → Plan → Prop) (B : Flags → MProblem → MPlan → Prop) (fl : Flags) : MMk α → α → Prop
  | ret (a : α) : Runs A B fl (.ret a) a
  | loc (n : ℕ) (p : ℕ → Option Problem) (m : FMod) (k : Option (ℕ → Plan) → MMk α) (c : ℕ → Plan) (a : α)
      (h : ∀ me < n, ∀ x, p me = some x → A (fl.modify m) x (c me)) (hk : Runs A B fl (k (some c)) a) : Runs A B fl (.loc n p m k) a
  | locNone (n : ℕ) (p : ℕ → Option Problem) (m : FMod) (k : Option (ℕ → Plan) → MMk α) (a : α) (hk : Runs A B fl (k none) a) : Runs A B fl (.loc n p m k) a
  | grp (n : ℕ) (p : ℕ → Option MProblem) (m : FMod) (k : Option (ℕ → MPlan) → MMk α) (c : ℕ → MPlan) (a : α)
      (h : ∀ me < n, ∀ x, p me = some x → B (fl.modify m) x (c me)) (hk : Runs A B fl (k (some c)) a) : Runs A B fl (.grp n p m k) a
  | grpNone (n : ℕ) (p : ℕ → Option MProblem) (m : FMod) (k : Option (ℕ → MPlan) → MMk α) (a : α) (hk : Runs A B fl (k none) a) : Runs A B fl (.grp n p m k) a

/-- plans the planner can return for an MPI problem: it picks any of the solvers `S`, in any way, for this problem and for all subproblems (`d`: the depth of nesting), and
asks it for a plan obeying at least the restrictions `fl` (kernel/planner.c:576-620 tries more of them; plans known from wisdom may obey more of them) -/
def MPlans (S : MSolver → Prop) (A : Flags → Problem → Plan → Prop) : ℕ → Flags → MProblem → MPlan → Prop
  | 0, _, _, _ => False
  | d + 1, fl, p, f => ∃ fl' : Flags, Planner.LEQ fl.l fl'.l = true ∧ ∃ s, S s ∧ (s.mkplan p fl').Runs A (MPlans S A d) fl' (some f)

end FFTW.Mpi
