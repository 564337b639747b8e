import Verif.Spec.HcStep

/-!
# The twiddle step of Cooley-Tukey between real and complex arrays

Let `r` be even and `n = r * m`.  Two arrays `cr`, `ci` (parts 0 and 1) of `n/2 + 1` numbers hold, before the step of a real-to-complex transform,
the transforms `F_b` of length `m` of the samples `b, b + r, b + 2 r, ...` of a real sequence, for all `b < r`, and afterwards the first half of
the transform of the whole sequence, real parts in `cr` and imaginary parts in `ci`.  The step of a complex-to-real transform goes the other way.
There are two ways to store `F_{2q}` and `F_{2q+1}` in the places `q m, ..., q m + m - 1`:

* the halfcomplex sequence of `F_{2q}` in `cr`, that of `F_{2q+1}` in `ci` (they come from real transforms);
* the complex sequence `F_{2q} + i F_{2q+1}`, real parts in `cr`, imaginary parts in `ci` (it comes from one complex transform).
-/

namespace FFTW

/-- `hc2c_kind`, rdft/codelet-rdft.h:109-112 -/
inductive Hc2cKind
  | viaRdft
  | viaDft
  deriving DecidableEq

namespace Spec
open Complex

/-- `F_b(k)`, where `S e f` is number `f` of array `e` -/
noncomputable def hc2cRow (via : Hc2cKind) (m : ℕ) (S : ℕ → ℕ → ℝ) (b k : ℕ) : ℂ :=
  match via with
  | .viaRdft => unpackHc m (fun a => S (b % 2) (b / 2 * m + a)) k
  | .viaDft =>
    let Z : ℕ → ℂ := fun k => ⟨S 0 (b / 2 * m + k), S 1 (b / 2 * m + k)⟩
    if b % 2 = 0 then (Z k + (starRingEnd ℂ) (Z ((m - k) % m))) / 2 else (Z k - (starRingEnd ℂ) (Z ((m - k) % m))) / (2 * I)

/-- frequency `f` of the whole Hermitian spectrum of length `n` of which the arrays hold the first half -/
noncomputable def hc2cSpec (n : ℕ) (S : ℕ → ℕ → ℝ) (f : ℕ) : ℂ :=
  if f = 0 ∨ 2 * f = n then ⟨S 0 f, 0⟩ else if 2 * f < n then ⟨S 0 f, S 1 f⟩ else ⟨S 0 (n - f), - S 1 (n - f)⟩

/-- forward: frequency `f` of the whole transform -/
noncomputable def hc2cFwd (via : Hc2cKind) (r m : ℕ) (S : ℕ → ℕ → ℝ) (f : ℕ) : ℂ :=
  ∑ b ∈ Finset.range r, ω (r * m) ^ (b * f) * hc2cRow via m S b (f % m)

/-- backward: `F_b(k)` -/
noncomputable def hc2cBwd (r m : ℕ) (S : ℕ → ℕ → ℝ) (b k : ℕ) : ℂ :=
  ∑ t ∈ Finset.range r, (starRingEnd ℂ) (ω (r * m)) ^ (b * (k + t * m)) * hc2cSpec (r * m) S (k + t * m)

/-- real (`e = 0`) or imaginary part -/
def part (e : ℕ) (z : ℂ) : ℝ := if e = 0 then z.re else z.im

/-- the new number `f` of array `e`, given the old arrays `S` -/
noncomputable def hc2cStep (via : Hc2cKind) (fwd : Bool) (r m : ℕ) (S : ℕ → ℕ → ℝ) (e f : ℕ) : ℝ :=
  if fwd then part e (hc2cFwd via r m S f)
  else match via with
    | .viaRdft => packHc m (hc2cBwd r m S (2 * (f / m) + e)) (f % m)
    | .viaDft => part e (hc2cBwd r m S (2 * (f / m)) (f % m) + I * hc2cBwd r m S (2 * (f / m) + 1) (f % m))

end Spec

/-- arguments of `hc2c_mkinferior`, rdft/ct-hc2c.h:25-30, without `rs`, which is always `m * ms`; `δ` is `ci - cr` -/
structure Hc2cP where
  r : ℕ
  m : ℕ
  ms : ℤ
  v : ℕ
  vs : ℤ
  δ : ℤ

/-- where number `f` of array `e` of vector `i` is -/
def Hc2cP.at (t : Hc2cP) (P : Ptr) (i e f : ℕ) : Ptr := P + ((e : ℤ) * t.δ + (f : ℤ) * t.ms + (i : ℤ) * t.vs)

namespace Spec

/-- contract of the step: `v` pairs of arrays are transformed in place, all else is left alone.  Backward, the last number of each array is lost. -/
def Hc2cOK (via : Hc2cKind) (fwd : Bool) (t : Hc2cP) (f : Ptr → Ptr → State → State) : Prop :=
  (∀ P : Ptr, ∀ i < t.v, ∀ e < 2, ∀ x, 2 * x ≤ t.r * t.m → ∀ i' < t.v, ∀ e' < 2, ∀ x', 2 * x' ≤ t.r * t.m →
    t.at P i e x = t.at P i' e' x' → i = i' ∧ e = e' ∧ x = x') →
  ∀ (P : Ptr) (st : State), P.blk < st.next →
    Frame st (f P (P + t.δ) st) (fun a => ∃ i < t.v, ∃ e < 2, ∃ x, 2 * x ≤ t.r * t.m ∧ a = t.at P i e x) ∧
    ∀ i < t.v, ∀ e < 2, ∀ x, 2 * x ≤ t.r * t.m → (fwd = false → 2 * x < t.r * t.m) →
      (f P (P + t.δ) st).mem (t.at P i e x) = hc2cStep via fwd t.r t.m (fun e x => st.mem (t.at P i e x)) e x

end Spec
end FFTW
