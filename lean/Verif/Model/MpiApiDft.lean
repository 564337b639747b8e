import Verif.Model.MpiDft
import Verif.Model.MpiRadix
import Verif.Model.MpiApi
import Verif.Model.MpiRdft
import Verif.Model.ApiR2r

/-!
# The MPI user interface for complex DFTs and real-to-real transforms: `mpi/api.c`, block distributions

Sizes are mathematical integers (overflow of the block computations is the subject of Model/MpiBlock).
-/

namespace FFTW.Mpi
open Tensor

/-- `XM(ddim)`, mpi/fftw3-mpi.h:54-60: size and block sizes; 0 is `FFTW_MPI_DEFAULT_BLOCK` -/
structure ADim where
  n : ℤ
  ib : ℤ
  ob : ℤ

/-- `XM(num_blocks_total)`, mpi/block.c:57-68, for one kind of blocks: dimensions are pairs of size and block size -/
def numBlocksTotal (D : List (ℕ × ℕ)) : ℕ := (D.map fun d => numBlocks d.1 d.2).prod

/-- the loop of `default_sz`, mpi/api.c:187-197, for one kind of blocks; `nb` is the number of blocks so far.  The dimensions are pairs of size and requested block size. -/
def defaultBlocks (npes : ℕ) : ℕ → List (ℕ × ℕ) → List ℕ
  | _, [] => []
  | nb, (n, b) :: l =>
    if npes / nb > 1 ∧ b = 0 then defaultBlock n (npes / nb) :: defaultBlocks npes (nb * numBlocks n (defaultBlock n (npes / nb))) l
    else (if b = 0 then n else b) :: defaultBlocks npes nb l

/-- the block sizes of one kind: mpi/api.c:177-180 and 187-197 -/
def chosenBlocks (npes : ℕ) (D : List (ℕ × ℕ)) : List ℕ := defaultBlocks npes (numBlocksTotal (D.map fun d => (d.1, if d.2 = 0 then d.1 else d.2))) D

/-- `default_sz`, mpi/api.c:165-208, with `rdft2 = 0`; the arguments have been checked.  `XM(dtensor_canonical)(sz, 0)` is mpi/dtensor.c:75-105. -/
def defaultSz (dims : List ADim) (npes : ℕ) : List DDim :=
  let sz := (dims.zip ((chosenBlocks npes (dims.map fun d => (d.n.toNat, d.ib.toNat))).zip (chosenBlocks npes (dims.map fun d => (d.n.toNat, d.ob.toNat))))).map
    fun x => (⟨x.1.n.toNat, x.2.1, x.2.2⟩ : DDim)
  let sz : List DDim := match sz with
    | [d] => if Primes.isPrime d.n = some true then [(⟨d.n, d.n, d.n⟩ : DDim)] else [d]   -- punt for 1d prime
    | sz => sz
  sz.map DDim.canonical

/-- the distribution of one kind -/
def distr (k : BK) (sz : List DDim) : List (ℕ × ℕ) := sz.map fun d => (d.n, d.b k)

/-- `XM(block_coords)`, mpi/block.c:79-89: coordinates, and what is left of `which_pe` -/
def blockCoords : List (ℕ × ℕ) → ℕ → List ℕ × ℕ
  | [], w => ([], w)
  | d :: D, w => let x := blockCoords D w; (x.2 % numBlocks d.1 d.2 :: x.1, x.2 / numBlocks d.1 d.2)

/-- `local_size`, mpi/api.c:222-238: `local_n` and `local_start` of process `me` -/
def localSizes (me : ℕ) (D : List (ℕ × ℕ)) : List ℕ × List ℕ :=
  if me ≥ numBlocksTotal D then (D.map fun _ => 0, D.map fun _ => 0)
  else
    let cs := (blockCoords D me).1
    ((D.zip cs).map fun x => Mpi.block x.1.1 x.1.2 x.2, (D.zip cs).map fun x => x.2 * x.1.2)

/-- `XM(is_block1d)`, mpi/block.c:124-132 -/
def isBlock1d : List (ℕ × ℕ) → Bool
  | a :: l =>
    if numBlocks a.1 a.2 = 1 then
      match l with
      | b :: l => if numBlocks b.1 b.2 = 1 then false else l.all fun d => !decide (numBlocks d.1 d.2 > 1)
      | [] => false
    else l.all fun d => !decide (numBlocks d.1 d.2 > 1)
  | [] => false

/-- the results of `XM(local_size_guru)` -/
structure LocalSize where
  /-- the returned value: how many complex numbers to allocate -/
  alloc : ℕ
  nIn : List ℕ
  startIn : List ℕ
  nOut : List ℕ
  startOut : List ℕ

/-- `a / b`, rounded up, mpi/api.c:298 -/
def ceilDiv (a b : ℕ) : ℕ := (a + b - 1) / b

/-- `prod(rnk, local_n)`, mpi/api.c:240-246 -/
def prodL (l : List ℕ) : ℕ := l.prod

/-- lines 275-310 of mpi/api.c: space for intermediate results of multi-dimensional transforms -/
def extraMulti (sz : List DDim) (howmany npes me : ℕ) : ℕ :=
  match sz with
  | a :: b :: l =>
    let rest := l.map DDim.n
    let rank (d : DDim) : Bool := decide (numBlocks d.n d.ib = 1) && decide (numBlocks d.n d.ob = 1)
    -- dft-rank-geq2-transposed
    let t :=
      if rank a then max 1 (prodL (localSizes me ((a.n, defaultBlock a.n npes) :: (b.n, b.n) :: distr .IB l)).1)
      else if rank b then max 1 (prodL (localSizes me ((a.n, a.n) :: (b.n, defaultBlock b.n npes) :: distr .IB l)).1)
      else 1
    -- dft-rank-geq2
    let after := howmany * (b.n * rest.prod)
    let t := max t (ceilDiv (a.n * Mpi.block after (defaultBlock after npes) me) howmany)
    -- dft-rank-geq2 with dimensions swapped
    let after := howmany * a.n * rest.prod
    max t (ceilDiv (b.n * Mpi.block after (defaultBlock after npes) me) howmany)
  | _ => 1

/-- `XM(local_size_guru)`, mpi/api.c:250-352, on the process of rank `me` -/
def localSizeGuru (dims : List ADim) (howmany : ℕ) (npes me : ℕ) (bwd : Bool) (flags : MFlags) : LocalSize :=
  if dims = [] then ⟨howmany, [], [], [], []⟩
  else
    let sz := defaultSz dims npes
    let finish (N : ℕ) (sz : List DDim) : LocalSize :=
      let i := localSizes me (distr .IB sz)
      let o := localSizes me (distr .OB sz)
      ⟨max N (max (prodL i.1) (prodL o.1)) * howmany, i.1, i.2, o.1, o.2⟩
    match sz with
    | [d] =>
      if howmany ≥ npes ∧ flags = {} then                      -- dft-rank1-bigvec
        finish (max 1 (ceilDiv (prodL (localSizes me [(d.n, d.n), (howmany, defaultBlock howmany npes)]).1) howmany)) sz
      else                                                     -- dft-rank1
        match chooseRadix d.n npes bwd with
        | some (r, m) =>
          let rblock := defaultBlock r npes
          let mblock := defaultBlock m npes
          let N := 1
          let N := if flags.scrambledIn then N else max N (rblock * m)
          let N := if flags.scrambledOut then N else max N (r * mblock)
          finish N [⟨d.n, if flags.scrambledIn then rblock * m else r * mblock, if flags.scrambledOut then r * mblock else rblock * m⟩]
        | none => finish 1 sz
    | sz => finish (if isBlock1d (distr .IB sz) && isBlock1d (distr .OB sz) then extraMulti sz howmany npes me else 1) sz

/-- `simple_dims`, mpi/api.c:211-219 -/
def simpleDims (n : List ℤ) : List ADim := n.map fun n => ⟨n, n, n⟩

/-- the dimensions of `XM(local_size_many_transposed)`, mpi/api.c:374-386 -/
def manyTransposedDims (n : List ℤ) (xblock yblock : ℤ) : List ADim :=
  match simpleDims n with
  | a :: b :: l => if yblock < b.n then { a with ib := xblock } :: { b with ob := yblock } :: l else { a with ib := xblock, ob := xblock } :: b :: l
  | [a] => [{ a with ib := xblock, ob := xblock }]
  | [] => []

/-- `XM(local_size_many_transposed)`, mpi/api.c:354-405, for rank 1 and more: allocation, and `nx`, `x_start`, `ny`, `y_start`.  (With rank 1 the call of `local_size_guru` fails an
assertion if it needs the sign, which is 0.) -/
def localSizeManyTransposed (n : List ℤ) (howmany : ℕ) (xblock yblock : ℤ) (npes me : ℕ) : ℕ × ℕ × ℕ × ℕ × ℕ :=
  let x := localSizeGuru (manyTransposedDims n xblock yblock) howmany npes me false {}
  (x.alloc, x.nIn.getD 0 0, x.startIn.getD 0 0,
    if n.length > 1 then x.nOut.getD 1 0 else x.nIn.getD 0 0, if n.length > 1 then x.startOut.getD 1 0 else x.startIn.getD 0 0)

/-- `XM(local_size_many)`, mpi/api.c:407-419, rank greater than 1 -/
def localSizeMany (n : List ℤ) (howmany : ℕ) (xblock : ℤ) (npes me : ℕ) : ℕ × ℕ × ℕ :=
  let x := localSizeManyTransposed n howmany xblock (if n.length > 1 then n.getD 1 0 else 0) npes me
  (x.1, x.2.1, x.2.2.1)

/-- `XM(local_size_many_1d)`, mpi/api.c:446-457 -/
def localSizeMany1d (nx : ℤ) (howmany npes me : ℕ) (bwd : Bool) (flags : MFlags) : LocalSize := localSizeGuru [⟨nx, 0, 0⟩] howmany npes me bwd flags

variable [CLib]

/-- `XM(plan_guru_dft)`, mpi/api.c:559-590, up to `X(mkapiplan)`: the problem to be planned, or `none` if the arguments are refused.  `space` as in `MDftP`. -/
def planGuruDft (dims : List ADim) (howmany : ℤ) (I O : ℕ → Ptr) (comm : Comm) (bwd : Bool) (flags : MFlags) (space : ℕ → ℕ) : Option MDftP :=
  if howmany < 0 ∨ dims = [] then none
  else if ∃ d ∈ dims, d.n < 1 ∨ d.ib < 0 ∨ d.ob < 0 then none
  else
    let sz := defaultSz dims comm.length
    if numBlocksTotal (distr .IB sz) > comm.length ∨ numBlocksTotal (distr .OB sz) > comm.length then none
    else some (mkDft sz howmany.toNat I O comm bwd flags space)

/-- the dimensions of `XM(plan_many_dft)`, mpi/api.c:598-608 -/
def manyDims (n : List ℤ) (iblock oblock : ℤ) (flags : MFlags) : List ADim :=
  match simpleDims n with
  | [a] => [{ a with ib := iblock, ob := oblock }]
  | a :: b :: l =>
    let a := if flags.transposedIn then a else { a with ib := iblock }
    let b := if flags.transposedIn then { b with ib := iblock } else b
    let a := if flags.transposedOut then a else { a with ob := oblock }
    let b := if flags.transposedOut then { b with ob := oblock } else b
    a :: b :: l
  | [] => []

/-- `XM(plan_many_dft)`, mpi/api.c:592-615 -/
def planManyDft (n : List ℤ) (howmany iblock oblock : ℤ) (I O : ℕ → Ptr) (comm : Comm) (bwd : Bool) (flags : MFlags) (space : ℕ → ℕ) : Option MDftP :=
  planGuruDft (manyDims n iblock oblock flags) howmany I O comm bwd flags space

/-- `XM(plan_dft)`, mpi/api.c:617-624; `plan_dft_1d`, `_2d`, `_3d` (626-652) are the cases `[nx]`, `[nx, ny]`, `[nx, ny, nz]` -/
def planDft (n : List ℤ) (I O : ℕ → Ptr) (comm : Comm) (bwd : Bool) (flags : MFlags) (space : ℕ → ℕ) : Option MDftP :=
  planManyDft n 1 0 0 I O comm bwd flags space

/-- `XM(plan_guru_r2r)`, mpi/api.c:649-684, up to `X(mkapiplan)` -/
def planGuruR2r (dims : List ADim) (howmany : ℤ) (I O : ℕ → Ptr) (comm : Comm) (kinds : List Spec.R2rKind) (flags : MFlags) (space : ℕ → ℕ) : Option MRdftP :=
  if howmany < 0 ∨ dims = [] then none
  else if ∃ d ∈ dims, d.n < 1 ∨ d.ib < 0 ∨ d.ob < 0 then none
  else
    let k := kinds.map Api.mapR2rKind
    let sz := defaultSz dims comm.length
    if numBlocksTotal (distr .IB sz) > comm.length ∨ numBlocksTotal (distr .OB sz) > comm.length then none
    else some (Rdft.mkRdft sz howmany.toNat I O comm k flags space)

/-- `XM(plan_many_r2r)`, mpi/api.c:686-709: the dimensions are those of `XM(plan_many_dft)` -/
def planManyR2r (n : List ℤ) (howmany iblock oblock : ℤ) (I O : ℕ → Ptr) (comm : Comm) (kinds : List Spec.R2rKind) (flags : MFlags) (space : ℕ → ℕ) : Option MRdftP :=
  planGuruR2r (manyDims n iblock oblock flags) howmany I O comm kinds flags space

/-- `XM(plan_r2r)`, mpi/api.c:711-720; `plan_r2r_2d`, `_3d` (722-746) are the cases `[nx, ny]`, `[nx, ny, nz]` -/
def planR2r (n : List ℤ) (I O : ℕ → Ptr) (comm : Comm) (kinds : List Spec.R2rKind) (flags : MFlags) (space : ℕ → ℕ) : Option MRdftP :=
  planManyR2r n 1 0 0 I O comm kinds flags space

end FFTW.Mpi
