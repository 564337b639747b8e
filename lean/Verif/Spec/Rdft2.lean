import Verif.Spec.Kernels

/-!
# Real-to-complex and complex-to-real transforms: what a plan must do

The transforms of the last dimension (the "rows") turn `n` reals into `n/2+1` complex numbers (`r2c`), or back (`c2r`); the other dimensions are
ordinary complex transforms, forward for `r2c` and backward for `c2r`.  On both sides of a row single reals alternate between two places: the
even and the odd samples of the real side (`r0`, `r1`), the real and imaginary parts of the complex side (`cr`, `ci`).
-/

namespace FFTW.Spec
open FFTW.Tensor

/-- the kinds of `rdft2` problems.  (`R2HCII` and `HC2RIII`, which only rdft/ct-hc2c-direct.c asks for, have their own problems, see
`Problem.rdft2s`.) -/
inductive R2Kind
  | R2HC
  | HC2R
  deriving DecidableEq

/-- the `t`-th real of a row, when even and odd reals are `a` apart and successive pairs `s` -/
def zig (a s : ℤ) (t : ℕ) : ℤ := ((t % 2 : ℕ) : ℤ) * a + ((t / 2 : ℕ) : ℤ) * s

/-- one row: `na` reals at offsets `A`, transformed to `nb` reals at offsets `B`: real number `t` of the output is `P t` of a linear combination
with complex coefficients `c t i`; `K` is the kernel of the other dimensions -/
structure Half where
  na : ℕ
  nb : ℕ
  A : ℕ → ℤ
  B : ℕ → ℤ
  c : ℕ → ℕ → ℂ
  P : ℕ → ℂ → ℝ
  K : Unit → ℕ → ℕ → ℕ → ℂ

/-- backward complex DFT: coefficient of input `j` in output `k` -/
noncomputable def idftK : Unit → ℕ → ℕ → ℕ → ℂ := fun _ n j k => star (ω n ^ (j * k))

/-- how often frequency `p` of the first half occurs in the whole Hermitian spectrum of length `n` -/
def mult (n p : ℕ) : ℕ := if p = 0 ∨ 2 * p = n then 1 else 2

/-- `n` reals to `n/2+1` complex numbers: `X_p = ∑ x_j exp(-2πi jp/n)` -/
noncomputable def r2cHalf (n : ℕ) (ρ rs δ cs : ℤ) : Half where
  na := n
  nb := 2 * (n / 2 + 1)
  A := zig ρ rs
  B := zig δ cs
  c t i := ω n ^ (i * (t / 2))
  P t := if t % 2 = 0 then Complex.re else Complex.im
  K := dftK

/-- `n/2+1` complex numbers to `n` reals: `x_j = Re ∑_p mult(p) X_p exp(+2πi jp/n)`, the sum over the whole Hermitian spectrum -/
noncomputable def c2rHalf (n : ℕ) (ρ rs δ cs : ℤ) : Half where
  na := 2 * (n / 2 + 1)
  nb := n
  A := zig δ cs
  B := zig ρ rs
  c j i := (mult n (i / 2) : ℂ) * star (ω n ^ (j * (i / 2))) * (if i % 2 = 0 then 1 else Complex.I)
  P _ := Complex.re
  K := idftK

/-- which element of a shifted halfcomplex sequence (kinds `R2HC01`, `HC2R10`) is at place `t`, when real and imaginary parts alternate: the real
part of frequency `t/2 + 1/2` if `t` is even, its imaginary part if `t` is odd -/
def shiftIx (n t : ℕ) : ℕ := if t % 2 = 0 then t / 2 else n - 1 - t / 2

/-- `n` reals to the half of the spectrum at the frequencies `1/2, 3/2, ...`, or back: coefficient of input `i` in output `t` -/
noncomputable def shiftK (fwd : Bool) (n i t : ℕ) : ℝ := if fwd then rK .R2HC01 n i (shiftIx n t) else rK .HC2R10 n (shiftIx n i) t

/-- the contract of an in-place transform of one row between reals and the frequencies `1/2, 3/2, ...` -/
def ShiftOK (fwd : Bool) (n : ℕ) (δ s : ℤ) (f : Ptr → State → State) : Prop :=
  (∀ t < n, ∀ t' < n, zig δ s t = zig δ s t' → t = t') → ∀ (P : Ptr) (st : State), P.blk < st.next →
    Frame st (f P st) (fun q => ∃ t < n, q = P + zig δ s t) ∧
    ∀ t < n, (f P st).mem (P + zig δ s t) = ∑ i ∈ Finset.range n, shiftK fwd n i t * st.mem (P + zig δ s i)

/-- a copy of `F` at every offset of `R` -/
def spread (F R : Multiset ℤ) : Multiset ℤ := R.bind fun r => F.map fun x => r + x

/-- offsets read by the rows `T` -/
def hIns (h : Half) (T : Tensor) : Multiset ℤ := spread ((Multiset.range h.na).map h.A) (ins T)
/-- offsets written by the rows `T` -/
def hOuts (h : Half) (T : Tensor) : Multiset ℤ := spread ((Multiset.range h.nb).map h.B) (outs T)
/-- all offsets of the rows `T` of an in-place problem, within one row each once -/
def hAll (h : Half) (T : Tensor) : Multiset ℤ :=
  spread ((Multiset.range h.na).map h.A + (Multiset.range h.nb).map h.B).dedup (ins T)

/-- well-formed problem: outputs are distinct; so are inputs, unless they are read-only; in place, every row stays at its place and rows do not
overlap -/
structure HWF (h : Half) (szc : List Dim) (vec : Tensor) (inpl nd : Bool) : Prop where
  out : (hOuts h (append (some szc) vec)).Nodup
  inp : nd = false ∨ inpl = true → (hIns h (append (some szc) vec)).Nodup
  eq : inpl = true → ∀ ab ∈ pairs (append (some szc) vec), ab.1 = ab.2
  all : inpl = true → (hAll h (append (some szc) vec)).Nodup

/-- locations a plan may write -/
def HWritable (h : Half) (T : Tensor) (inpl nd : Bool) (I O : Ptr) (q : Ptr) : Prop :=
  (∃ b ∈ hOuts h T, q = O + b) ∨ ((nd = false ∨ inpl = true) ∧ ∃ a ∈ hIns h T, q = I + a)

/-- no input location is an output location -/
def HApart (h : Half) (T : Tensor) (I O : Ptr) : Prop := ∀ a ∈ hIns h T, ∀ b ∈ hOuts h T, I + a ≠ O + b

/-- pointers a plan may be run on -/
structure HCompat (h : Half) (T : Tensor) (inpl : Bool) (I O : Ptr) (st : State) : Prop where
  blkI : I.blk < st.next
  blkO : O.blk < st.next
  same : inpl = true → I = O
  disj : inpl = false → HApart h T I O

/-- the contract: rows of kind `h`, other transform dimensions `szc`, vector dimensions `vec` -/
def HOK (h : Half) (szc : List (Dim × Unit)) (vec : Tensor) (inpl nd : Bool) (f : Ptr → Ptr → State → State) : Prop :=
  HWF h (szc.map Prod.fst) vec inpl nd → ∀ I O st, HCompat h (append (some (szc.map Prod.fst)) vec) inpl I O st →
    Frame st (f I O st) (HWritable h (append (some (szc.map Prod.fst)) vec) inpl nd I O) ∧
    ∀ dk, GIdx szc dk → ∀ ab ∈ pairs vec, ∀ t < h.nb,
      (f I O st).mem (O + (gOut dk + ab.2 + h.B t)) =
        h.P t (gSum h.K dk fun o => ∑ i ∈ Finset.range h.na, h.c t i * ((st.mem (I + (o + ab.1 + h.A i)) : ℝ) : ℂ))

end FFTW.Spec
