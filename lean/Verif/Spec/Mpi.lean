import Verif.Model.Mpi
import Verif.Spec.Sound

/-!
# What it means for an MPI plan to be right
-/

namespace FFTW.Mpi
open Tensor Spec

/-- where the process holding row `i` has element `v` of the tuple `(i, j)` of an `nx × ny` matrix of `vn`-tuples distributed by blocks of `block`
rows: as its rows, one after the other -/
def rowOff (ny vn block i j v : ℕ) : ℕ := ((i % block) * ny + j) * vn + v
/-- or, `TRANSPOSED`, as columns of its local block -/
def colOff (nx vn block i j v : ℕ) : ℕ := (j * Mpi.block nx block (i / block) + i % block) * vn + v

/-- place of element `v` of the tuple in row `i`, column `j` of the input: on process `i / block` -/
def TransP.inOff (p : TransP) (i j v : ℕ) : ℕ :=
  if p.flags.transposedIn then colOff p.nx p.vn p.block i j v else rowOff p.ny p.vn p.block i j v
/-- place of the same element in the output: on process `j / tblock` -/
def TransP.outOff (p : TransP) (i j v : ℕ) : ℕ :=
  if p.flags.transposedOut then colOff p.ny p.vn p.tblock j i v else rowOff p.nx p.vn p.tblock j i v

/-- arrays an MPI plan may be run on: all in place, or no process's arrays overlap -/
structure MCompat (comm : Comm) (space : ℕ → ℕ) (inpl : Prop) (I O : ℕ → Ptr) (st : Dist) : Prop where
  blkI : ∀ w ∈ comm, (I w).blk < (st w).next
  blkO : ∀ w ∈ comm, (O w).blk < (st w).next
  same : inpl → ∀ w ∈ comm, I w = O w
  disj : ¬ inpl → ∀ w ∈ comm, ∀ x < space w, ∀ y < space w, I w + (x : ℤ) ≠ O w + (y : ℤ)

/-- only the output arrays change (and the input arrays, unless they are to be kept), and only on processes of the communicator -/
structure MFrame (comm : Comm) (space : ℕ → ℕ) (nd : Bool) (I O : ℕ → Ptr) (st st' : Dist) : Prop where
  other : ∀ w, w ∉ comm → st' w = st w
  frame : ∀ w ∈ comm, Frame (st w) (st' w) fun q => (∃ x < space w, q = O w + (x : ℤ)) ∨ (nd = false ∧ ∃ x < space w, q = I w + (x : ℤ))

/-- a plan transposes: element `(i, j, v)` of the output is element `(i, j, v)` of the input -/
def TOK (nd : Bool) (p : TransP) (f : MPlan) : Prop :=
  ∀ I O st, MCompat p.comm p.space p.inpl I O st → MFrame p.comm p.space nd I O st (f I O st) ∧
    ∀ i < p.nx, ∀ j < p.ny, ∀ v < p.vn,
      (f I O st (p.comm.at (j / p.tblock))).mem (O (p.comm.at (j / p.tblock)) + (p.outOff i j v : ℤ)) =
        (st (p.comm.at (i / p.block))).mem (I (p.comm.at (i / p.block)) + (p.inOff i j v : ℤ))

/-- the arrays of all processes are in place or of none, and then they are disjoint -/
structure MApart (comm : Comm) (space : ℕ → ℕ) (inpl : Prop) (I O : ℕ → Ptr) : Prop where
  same : inpl → ∀ w ∈ comm, I w = O w
  disj : ¬ inpl → ∀ w ∈ comm, ∀ x < space w, ∀ y < space w, I w + (x : ℤ) ≠ O w + (y : ℤ)
  ne : ¬ inpl → ∀ w ∈ comm, I w ≠ O w

/-- transpositions the planner may be asked for: the processes of the communicator are distinct, sizes are positive, there are enough processes
for the blocks (the assertions of mpi/transpose-problem.c:99-101), blocks are not larger than the dimension, and the arrays of each process have room
for its part of the input and of the output -/
structure TransP.Ok (p : TransP) : Prop where
  nodup : p.comm.Nodup
  nx : 0 < p.nx
  ny : 0 < p.ny
  vn : 0 < p.vn
  blk : 0 < p.block ∧ p.block ≤ p.nx
  tblk : 0 < p.tblock ∧ p.tblock ≤ p.ny
  pes : p.nx ≤ p.comm.length * p.block
  tpes : p.ny ≤ p.comm.length * p.tblock
  roomIn : ∀ r < p.comm.length, Mpi.block p.nx p.block r * p.ny * p.vn ≤ p.space (p.comm.at r)
  roomOut : ∀ r < p.comm.length, p.nx * Mpi.block p.ny p.tblock r * p.vn ≤ p.space (p.comm.at r)
  apart : MApart p.comm p.space p.inpl p.I p.O

end FFTW.Mpi
