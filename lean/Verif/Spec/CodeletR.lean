import Verif.Model.CodeletsR
import Verif.Spec.Kernels
import Verif.Spec.Sound

/-!
# What the solvers require of a real codelet

The real side of a codelet is one array split in even (`R0`) and odd (`R1`) elements; the complex side is a half of a Hermitian spectrum,
real parts in `Cr`, imaginary parts in `Ci`, without the imaginary parts that are zero.
-/

namespace FFTW.RdftS
open Tensor Spec

/-- where a codelet finds element `j` of its real array -/
def realAt (R0 R1 : Ptr) (rs : ℤ) (j : ℕ) : Ptr := (if j % 2 = 0 then R0 else R1) + ((j / 2 : ℕ) : ℤ) * rs

/-- frequencies are integers (0) or half-integers (1) -/
def freqShift : RKind → ℕ
  | .R2HC01 | .R2HC11 | .HC2R10 | .HC2R11 => 1
  | _ => 0

/-- where a codelet finds element `p` of a halfcomplex sequence of length `n`: the real part of frequency `p`, or the imaginary part of
frequency `n - sh - p` -/
def hcAt (n sh : ℕ) (Cr Ci : Ptr) (csr csi : ℤ) (p : ℕ) : Ptr :=
  if 2 * p + sh ≤ n then Cr + (p : ℤ) * csr else Ci + ((n - sh - p : ℕ) : ℤ) * csi

/-- `st'` is `st` with the transform of kind `kd` of the `n` numbers at `A` stored at `B` -/
structure Computes (kd : RKind) (n : ℕ) (A B : ℕ → Ptr) (st st' : State) : Prop where
  next : st'.next = st.next
  other : ∀ q, (∀ k < n, q ≠ B k) → st'.mem q = st.mem q
  val : ∀ k < n, st'.mem (B k) = ∑ j ∈ Finset.range n, rK kd n j k * st.mem (A j)

/-- contract of a real codelet -/
structure KR2c.Sound (c : KR2c) : Prop where
  /-- the four kinds of real codelets, rdft/scalar/r2c.c:23-37 -/
  kinds : c.kind = .R2HC00 ∨ c.kind = .R2HC01 ∨ c.kind = .HC2R00 ∨ c.kind = .HC2R10
  /-- `vl` transforms are done one after the other -/
  loop : ∀ (R0 R1 Cr Ci : Ptr) (rs csr csi : ℤ) (vl : ℕ) (ivs ovs : ℤ) (st : State), c.k R0 R1 Cr Ci rs csr csi vl ivs ovs st =
    forN vl (fun i st =>
      let r := (i : ℤ) * if r2hcKindp c.kind then ivs else ovs
      let s := (i : ℤ) * if r2hcKindp c.kind then ovs else ivs
      c.k (R0 + r) (R1 + r) (Cr + s) (Ci + s) rs csr csi 1 0 0 st) st
  /-- one transform, whatever the overlap of input and output -/
  one : ∀ (R0 R1 Cr Ci : Ptr) (rs csr csi : ℤ) (st : State),
    let A := realAt R0 R1 rs
    let B := hcAt c.n (freqShift c.kind) Cr Ci csr csi
    if r2hcKindp c.kind then
      (∀ k < c.n, ∀ k' < c.n, B k = B k' → k = k') → Computes c.kind c.n A B st (c.k R0 R1 Cr Ci rs csr csi 1 0 0 st)
    else
      (∀ k < c.n, ∀ k' < c.n, A k = A k' → k = k') → Computes c.kind c.n B A st (c.k R0 R1 Cr Ci rs csr csi 1 0 0 st)

end FFTW.RdftS
