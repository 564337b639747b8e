import Verif.Spec.ApiR2r

/-!
# What the user of the r2c and c2r interfaces is promised

The manual, "One-Dimensional DFTs of Real Data", "Multi-Dimensional DFTs of Real Data", "Real-data DFT Array Format", "Advanced Real-data DFTs",
"Guru Real-data DFTs".  The complex array holds "roughly half" of the Hermitian spectrum: the last dimension has `n/2+1` elements instead of `n`.
-/

namespace FFTW.Spec
open FFTW.Tensor (Dim)

/-- a complex array: where the real and the imaginary part of its element number `x` are -/
structure CArr where
  re : ℤ → Ptr
  im : ℤ → Ptr

namespace CArr
/-- an array of `fftw_complex` -/
def interleaved (c : Ptr) : CArr := ⟨fun x => c + 2 * x, fun x => c + (2 * x + 1)⟩
/-- two arrays of reals -/
def split (r i : Ptr) : CArr := ⟨fun x => r + x, fun x => i + x⟩
/-- an element -/
def elt (A : CArr) (m : Ptr → ℝ) (x : ℤ) : ℂ := ⟨m (A.re x), m (A.im x)⟩
/-- the memory of some elements -/
def Mem (A : CArr) (P : ℤ → Prop) (q : Ptr) : Prop := ∃ x, P x ∧ (q = A.re x ∨ q = A.im x)
/-- real and imaginary parts do not share memory -/
def PartsApart (A : CArr) (P : ℤ → Prop) : Prop := ∀ x y, P x → P y → A.re x ≠ A.im y
end CArr

/-- a batch of transforms between a real and a complex array: `n` are the extents of all transform dimensions but the last, `m` is the extent of the
last one (of the real data), `v` are the extents of the loops; then the positions of the real element `(j, i)`, `i < m`, and of the complex element
`(k, q)`, `q ≤ m/2`, of transform `b` -/
structure RBatch where
  n : List ℕ
  m : ℕ
  v : List ℕ
  real : List ℕ → List ℕ → ℕ → ℤ
  cplx : List ℕ → List ℕ → ℕ → ℤ

/-- the last dimension; a transform of rank 0 is one of size 1 -/
def lastOf (dims : List Dim) : Dim := dims.getLast?.getD ⟨1, 0, 0⟩

/-- guru interface, r2c: the input is real -/
def guruR2c (dims loops : List Dim) : RBatch where
  n := dims.dropLast.map (·.n)
  m := (lastOf dims).n
  v := loops.map (·.n)
  real b j i := dot (loops.map (·.is)) b + (dot (dims.dropLast.map (·.is)) j + (lastOf dims).is * i)
  cplx b k q := dot (loops.map (·.os)) b + (dot (dims.dropLast.map (·.os)) k + (lastOf dims).os * q)

/-- guru interface, c2r: the input is complex -/
def guruC2r (dims loops : List Dim) : RBatch where
  n := dims.dropLast.map (·.n)
  m := (lastOf dims).n
  v := loops.map (·.n)
  real b j i := dot (loops.map (·.os)) b + (dot (dims.dropLast.map (·.os)) j + (lastOf dims).os * i)
  cplx b k q := dot (loops.map (·.is)) b + (dot (dims.dropLast.map (·.is)) k + (lastOf dims).is * q)

/-- advanced interface: strides and distances of either array count its elements -/
def manyR (n : List ℕ) (m : ℕ) (howmany : ℕ) (rembed : List ℤ) (rstride rdist : ℤ) (cembed : List ℤ) (cstride cdist : ℤ) : RBatch where
  n := n
  m := m
  v := [howmany]
  real b j i := b.headD 0 * rdist + rstride * rowMajor rembed (j ++ [i])
  cplx b k q := b.headD 0 * cdist + cstride * rowMajor cembed (k ++ [q])

/-- default embedding of the real array: "padded" to `2*(n/2+1)` in the last dimension for in-place transforms -/
def realEmbed (inplace : Bool) (n : List ℕ) (m : ℕ) : List ℤ := n.map (fun x : ℕ => (x : ℤ)) ++ [if inplace then 2 * ((m / 2 + 1 : ℕ) : ℤ) else (m : ℤ)]
/-- default embedding of the complex array -/
def cplxEmbed (n : List ℕ) (m : ℕ) : List ℤ := n.map (fun x : ℕ => (x : ℤ)) ++ [((m / 2 + 1 : ℕ) : ℤ)]

namespace RBatch
/-- positions of the real elements -/
def Real (B : RBatch) (x : ℤ) : Prop := ∃ b j i, Box B.v b ∧ Box B.n j ∧ i < B.m ∧ x = B.real b j i
/-- positions of the complex elements -/
def Cplx (B : RBatch) (x : ℤ) : Prop := ∃ b k q, Box B.v b ∧ Box B.n k ∧ q ≤ B.m / 2 ∧ x = B.cplx b k q
/-- different real elements are at different positions -/
def RealInj (B : RBatch) : Prop := ∀ b j i b' j' i', Box B.v b → Box B.n j → i < B.m → Box B.v b' → Box B.n j' → i' < B.m →
  B.real b j i = B.real b' j' i' → b = b' ∧ j = j' ∧ i = i'
/-- different complex elements are at different positions -/
def CplxInj (B : RBatch) : Prop := ∀ b k q b' k' q', Box B.v b → Box B.n k → q ≤ B.m / 2 → Box B.v b' → Box B.n k' → q' ≤ B.m / 2 →
  B.cplx b k q = B.cplx b' k' q' → b = b' ∧ k = k' ∧ q = q'
/-- memory of the row `(b, j)`, real and complex -/
def Row (B : RBatch) (r : Ptr) (A : CArr) (b j : List ℕ) (q : Ptr) : Prop :=
  RMem r (fun x => ∃ i, i < B.m ∧ x = B.real b j i) q ∨ A.Mem (fun x => ∃ p, p ≤ B.m / 2 ∧ x = B.cplx b j p) q

/-- arrays for in-place transforms: there is something to do, every row of the complex array begins where the row of the real array begins, and
different rows do not overlap -/
structure InPlace (B : RBatch) (r : Ptr) (A : CArr) : Prop where
  pos : ∀ x ∈ B.v, 0 < x
  start : ∀ b j, Box B.v b → Box B.n j → r + B.real b j 0 = A.re (B.cplx b j 0)
  rows : ∀ b j b' j' q, Box B.v b → Box B.n j → Box B.v b' → Box B.n j' → B.Row r A b j q → B.Row r A b' j' q → b = b' ∧ j = j'

/-- arrays for out-of-place transforms -/
def Apart (B : RBatch) (r : Ptr) (A : CArr) : Prop := ∀ q, RMem r B.Real q → ¬ A.Mem B.Cplx q

/-- one of both -/
def Arranged (B : RBatch) (r : Ptr) (A : CArr) : Prop := (r = A.re 0 ∧ B.InPlace r A) ∨ (r ≠ A.re 0 ∧ B.Apart r A)
end RBatch

/-- r2c: element `(k, q)` of the output is the corresponding element of the DFT of the real input -/
def R2cs (B : RBatch) (x : ℤ → ℝ) (X : ℤ → ℂ) : Prop :=
  ∀ b k q, Box B.v b → Box B.n k → q ≤ B.m / 2 → X (B.cplx b k q) =
    sumBox B.n fun j => ∑ i ∈ Finset.range B.m, twist (-1) (B.n ++ [B.m]) (j ++ [i]) (k ++ [q]) * (x (B.real b j i) : ℂ)

/-- the index vector of the opposite frequency -/
def oppose (n k : List ℕ) : List ℕ := List.zipWith (fun n k => (n - k) % n) n k

/-- the whole spectrum, from its first half by Hermitian symmetry -/
noncomputable def hermitian (n : List ℕ) (m : ℕ) (X : List ℕ → ℕ → ℂ) (k : List ℕ) (q : ℕ) : ℂ :=
  if q ≤ m / 2 then X k q else (starRingEnd ℂ) (X (oppose n k) (m - q))

/-- c2r: the output is the backward DFT of the Hermitian spectrum of which the input is the first half (the real part of it, in case the input violates the
symmetry within itself) -/
def C2rs (B : RBatch) (X : ℤ → ℂ) (x : ℤ → ℝ) : Prop :=
  ∀ b j i, Box B.v b → Box B.n j → i < B.m → x (B.real b j i) =
    (sumBox B.n fun k => ∑ q ∈ Finset.range B.m, twist 1 (B.n ++ [B.m]) (k ++ [q]) (j ++ [i]) *
      hermitian B.n B.m (fun k q => X (B.cplx b k q)) k q).re

end FFTW.Spec
