import Mathlib.Data.List.Perm.Basic
import Mathlib.Data.List.Sort
/-!
# `kernel/tensor*.c`

`INT` is unbounded here.  Extents are natural numbers (`tensor_kosherp`, kernel/tensor9.c:24-36, asserts `n >= 0`).
The C library's `qsort` is not required to be stable, so it is a parameter: *some* sorting function.
-/

namespace FFTW.Tensor

/-- `iodim`, kernel/ifftw.h:417-421 -/
@[ext] structure Dim where
  n : Nat
  is : Int
  os : Int
  deriving DecidableEq, Repr

/-- `tensor`, kernel/ifftw.h:423-432; `none` is rank `RNK_MINFTY` -/
abbrev Tensor := Option (List Dim)

/-- The C library's `qsort`: given a comparison function it returns the elements in some nondecreasing order. -/
class CLib where
  qsort : (Dim → Dim → Int) → List Dim → List Dim
  perm : ∀ cmp l, (qsort cmp l).Perm l
  sorted : ∀ cmp l, (∀ a b, cmp a b ≤ 0 ∨ cmp b a ≤ 0) → (∀ a b c, cmp a b ≤ 0 → cmp b c ≤ 0 → cmp a c ≤ 0) →
    (qsort cmp l).Pairwise fun a b => cmp a b ≤ 0

/-- `signof`, kernel/tensor7.c:24-29 -/
def signof (x : Int) : Int := if x < 0 then -1 else if x = 0 then 0 else 1

/-- `X(iabs)`, kernel/iabs.c:23-26 -/
def iabs (a : Int) : Int := if a < 0 then 0 - a else a
/-- `X(imin)`, kernel/minmax.c -/
def imin (a b : Int) : Int := if a < b then a else b
/-- `X(imax)`, kernel/minmax.c -/
def imax (a b : Int) : Int := if a > b then a else b

/-- `X(dimcmp)`, kernel/tensor7.c:32-52 -/
def dimcmp (a b : Dim) : Int :=
  let sai := iabs a.is; let sbi := iabs b.is
  let sao := iabs a.os; let sbo := iabs b.os
  let sam := imin sai sao; let sbm := imin sbi sbo
  if sam ≠ sbm then signof (sbm - sam)
  else if sbi ≠ sai then signof (sbi - sai)
  else if sbo ≠ sao then signof (sbo - sao)
  else signof ((a.n : Int) - b.n)

variable [CLib]

/-- `canonicalize`, kernel/tensor7.c:54-60 -/
def canonicalize (x : List Dim) : List Dim := if x.length > 1 then CLib.qsort dimcmp x else x

/-- `compare_by_istride`, kernel/tensor7.c:62-68 -/
def compareByIstride (a b : Dim) : Int := signof (iabs b.is - iabs a.is)

/-- `really_compress`, kernel/tensor7.c:70-88 -/
def reallyCompress (sz : List Dim) : List Dim := sz.filter fun d => d.n ≠ 1

/-- `X(tensor_compress)`, kernel/tensor7.c:99-104 -/
def compress (sz : List Dim) : List Dim := canonicalize (reallyCompress sz)

/-- `strides_contig`, kernel/tensor7.c:108-111 -/
def stridesContig (a b : Dim) : Bool := decide (a.is = b.is * b.n ∧ a.os = b.os * b.n)

/-- the merging loop, kernel/tensor7.c:149-160: `cur` is `x->dims[rnk-1]`, `prev` is `sz2->dims[i-1]` -/
def mergeLoop (cur prev : Dim) : List Dim → List Dim
  | [] => [cur]
  | b :: rest =>
    if stridesContig prev b then mergeLoop { n := cur.n * b.n, is := b.is, os := b.os } b rest
    else cur :: mergeLoop b b rest

/-- `X(tensor_sz)`, kernel/tensor.c:62-73 -/
def tensorSz : Tensor → Nat
  | none => 0
  | some l => (l.map Dim.n).prod

/-- `X(tensor_compress_contiguous)`, kernel/tensor7.c:116-167 -/
def compressContiguous (sz : Tensor) : Tensor :=
  match sz with
  | none => none                                     -- tensor_sz == 0
  | some l =>
    if tensorSz (some l) = 0 then none
    else
      let sz2 := reallyCompress l
      if sz2.length ≤ 1 then some sz2
      else
        match CLib.qsort compareByIstride sz2 with
        | [] => some []
        | d :: rest => some (canonicalize (mergeLoop d d rest))

omit [CLib] in
/-- `X(tensor_append)`, kernel/tensor5.c:82-92 -/
def append : Tensor → Tensor → Tensor
  | some a, some b => some (a ++ b)
  | _, _ => none

/-- `inplace_kind`, kernel/ifftw.h:444 -/
inductive InplaceKind | IS | OS

/-- one dimension of `X(tensor_copy_inplace)`, kernel/tensor5.c:41-54 -/
def Dim.inplace : InplaceKind → Dim → Dim
  | .IS, d => { d with os := d.is }
  | .OS, d => { d with is := d.os }

/-- `X(tensor_copy_inplace)`, kernel/tensor5.c:41-54 -/
def copyInplace (k : InplaceKind) (t : Tensor) : Tensor := t.map (·.map (Dim.inplace k))

/-- `X(tensor_inplace_strides)`, kernel/tensor4.c:58-68 (finite rank) -/
def inplaceStrides (l : List Dim) : Bool := l.all fun d => decide (d.is = d.os)

/-- `X(tensor_inplace_strides2)`, kernel/tensor4.c:70-73 -/
def inplaceStrides2 (a b : List Dim) : Bool := inplaceStrides a && inplaceStrides b

/-- `tensor_strides_decrease` (static), kernel/tensor4.c:77-88 -/
def stridesDecrease1 (k : InplaceKind) (l : List Dim) : Bool :=
  l.any fun d => decide ((d.os - d.is) * (match k with | .OS => 1 | .IS => -1) < 0)

/-- `X(tensor_strides_decrease)`, kernel/tensor4.c:98-104 -/
def stridesDecrease (sz vecsz : List Dim) (k : InplaceKind) : Bool :=
  stridesDecrease1 k sz || (inplaceStrides sz && stridesDecrease1 k vecsz)

/-- `X(tensor_max_index)`, kernel/tensor4.c:24-37 -/
def maxIndex (l : List Dim) : Int :=
  imax ((l.map fun d => ((d.n : Int) - 1) * iabs d.is).sum) ((l.map fun d => ((d.n : Int) - 1) * iabs d.os).sum)

/-- `X(tensor_min_istride)`, kernel/tensor4.c:39-50 -/
def minIstride : List Dim → Int
  | [] => 0
  | d :: l => l.foldl (fun s e => imin s (iabs e.is)) (iabs d.is)
/-- `X(tensor_min_ostride)`, kernel/tensor4.c:39-51 -/
def minOstride : List Dim → Int
  | [] => 0
  | d :: l => l.foldl (fun s e => imin s (iabs e.os)) (iabs d.os)
/-- `X(tensor_min_stride)`, kernel/tensor4.c:53-56 -/
def minStride (l : List Dim) : Int := imin (minIstride l) (minOstride l)

/-- `X(tensor_equal)`, kernel/tensor7.c:180-197 -/
def tensorEqual (a b : Tensor) : Bool := decide (a = b)

/-- `X(tensor_inplace_locations)`, kernel/tensor7.c:201-215 -/
def inplaceLocations (sz vecsz : Tensor) : Bool :=
  let t := append sz vecsz
  tensorEqual (compressContiguous (copyInplace .IS t)) (compressContiguous (copyInplace .OS t))

end FFTW.Tensor
