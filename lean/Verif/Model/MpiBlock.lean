import Verif.Model.CInt
/-!
# `mpi/block.c` — block distribution of a multi-dimensional array over processes
-/

namespace FFTW.MpiBlock

/-- `num_blocks`, mpi/block.c:23-26 -/
def numBlocks (n block : Int) : C Int := do
  let a ← cadd n block
  let a ← csub a 1
  cdiv a block

/-- `num_blocks_ok`, mpi/block.c:28-33 -/
def numBlocksOk (n block nPes : Int) : C Bool := do
  let k ← numBlocks n block
  return decide (nPes ≥ k)

/-- `default_block`, mpi/block.c:39-42 -/
def defaultBlock (n nPes : Int) : C Int := do
  let a ← cadd n nPes
  let a ← csub a 1
  cdiv a nPes

/-- `block`, mpi/block.c:46-50 -/
def block (n blk which : Int) : C Int := do
  let wb ← cmul which blk
  let d ← csub n wb
  return if d ≤ 0 then 0 else if d > blk then blk else d

/-- a dimension of a `dtensor` for one `block_kind` (mpi/ifftw-mpi.h): size and block size -/
structure DDim where
  n : Int
  b : Int

/-- `num_blocks_total`, mpi/block.c:57-68, finite rank.  The C loop accumulates left to right. -/
def numBlocksTotalAux (ntot : Int) : List DDim → C Int
  | [] => return ntot
  | d :: ds => do
    let k ← numBlocks d.n d.b
    let ntot ← cmul ntot k
    numBlocksTotalAux ntot ds

/-- `num_blocks_total`, mpi/block.c:57-68 -/
def numBlocksTotal (sz : List DDim) : C Int := numBlocksTotalAux 1 sz

/-- the loop of `block_coords`, mpi/block.c:84-88, run from the last dimension down: argument = dimensions in reverse
order; result = coordinates in reverse order -/
def blockCoordsRev (which : Int) : List DDim → C (List Int)
  | [] => return []
  | d :: ds => do
    let nb ← numBlocks d.n d.b
    let c ← cmod which nb
    let w ← cdiv which nb
    let cs ← blockCoordsRev w ds
    return c :: cs

/-- `block_coords`, mpi/block.c:79-89; the assertion of line 83 (`!idle_process`) is a precondition -/
def blockCoords (sz : List DDim) (which : Int) : C (List Int) := do
  let nt ← numBlocksTotal sz
  if which ≥ nt then none
  else
    let cs ← blockCoordsRev which sz.reverse
    return cs.reverse

/-- the product loop of `total_block`, mpi/block.c:99-100 -/
def totalBlockAux (N : Int) : List DDim → List Int → C Int
  | d :: ds, c :: cs => do
    let b ← block d.n d.b c
    let N ← cmul N b
    totalBlockAux N ds cs
  | _, _ => return N

/-- `total_block`, mpi/block.c:91-104 -/
def totalBlock (sz : List DDim) (which : Int) : C Int := do
  let nt ← numBlocksTotal sz
  if which ≥ nt then return 0                     -- idle_process
  else
    let cs ← blockCoords sz which
    totalBlockAux 1 sz cs

end FFTW.MpiBlock
