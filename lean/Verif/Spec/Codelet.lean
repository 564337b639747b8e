import Verif.Model.Codelets
import Verif.Spec.Cexp
import Verif.Spec.Sound

/-!
# What the solvers require of a codelet

Codelets are generated code; the theorems about solvers that call them are relative to these contracts.
-/

namespace FFTW.DftS
open Tensor Spec

/-- contract of a codelet of size `sz` -/
structure KDft.Sound (c : KDft) : Prop where
  /-- if `okp` accepts the arguments, `vl` transforms are computed without touching the input; in place if the strides are equal or
  there is at most one transform -/
  run : ∀ ri ii ro io is os vl ivs ovs fl, c.okp ri ii ro io is os vl ivs ovs fl = true → ∀ inpl : Bool,
    (inpl = true → vl ≤ 1 ∨ is = os ∧ ivs = ovs) →
    GOK dftK [(⟨c.sz, is, os⟩, ())] (some [⟨vl, ivs, ovs⟩]) (ii - ri) (io - ro) inpl true
      fun I O => c.k I (I + (ii - ri)) O (O + (io - ro)) is os vl ivs ovs
  /-- a codelet that accepts two transforms with vector stride 0 can do a single one -/
  one : ∀ ri ii ro io is os fl, c.okp ri ii ro io is os 2 0 0 fl = true → ∀ inpl : Bool,
    GOK dftK [(⟨c.sz, is, os⟩, ())] (some [⟨1, 0, 0⟩]) (ii - ri) (io - ro) inpl true
      fun I O => c.k I (I + (ii - ri)) O (O + (io - ro)) is os 1 0 0
  /-- a codelet that accepts to transform from an interleaved array to some `os > ovs` can also work in place in that array; C never asks
  `okp` about this call -/
  inBuf : ∀ ro io is os vl ovs fl, c.okp null (null + (1 : ℤ)) ro io is os vl 2 ovs fl = true → |ovs| < |os| → ovs ≠ 0 →
    GOK dftK [(⟨c.sz, is, is⟩, ())] (some [⟨vl, 2, 2⟩]) 1 1 true true
      fun I O => c.k I (I + (1 : ℤ)) O (O + (1 : ℤ)) is is vl 2 2

/-- contract of a twiddle codelet (decimation in time or in frequency) -/
structure KDftw.Sound (c : KDftw) (cexp : ℕ → ℤ → ℝ × ℝ) (dit : Bool) : Prop where
  /-- if `okp` accepts, columns `mb .. me-1` are transformed, also with a table that is one column too long -/
  run : ∀ rio iio rs vs m mb me ms fl extra, c.okp rio iio rs vs m mb me ms fl = true → mb ≤ me → me ≤ m → extra ≤ 1 →
    TwOK dit ⟨c.radix, rs, rs, m, ms, 1, 0, 0, mb, me - mb⟩ (iio - rio)
      fun P => c.k (P + (mb : ℤ) * ms) (P + (iio - rio) + (mb : ℤ) * ms) (c.W cexp c.radix m extra) rs mb me ms
  /-- if `okp` accepts a batch and the whole, it is right on all batches -/
  batch : ∀ rio iio rs vs m mb me ms b fl, c.okp rio iio rs vs m mb (mb + b) ms fl = true → c.okp rio iio rs vs m mb me ms fl = true →
    ∀ q s, (s = b ∨ mb + q * b + s = me) → mb + q * b + s ≤ me → me ≤ m →
    TwOK dit ⟨c.radix, rs, rs, m, ms, 1, 0, 0, mb + q * b, s⟩ (iio - rio)
      fun P => c.k (P + ((mb + q * b : ℕ) : ℤ) * ms) (P + (iio - rio) + ((mb + q * b : ℕ) : ℤ) * ms) (c.W cexp c.radix m 0) rs (mb + q * b) (mb + q * b + s) ms
  /-- the last column alone, computed as two columns with stride 0; only asked of codelets that cannot do an odd number of columns -/
  extra : ∀ rio iio rs vs m ms fl, c.okp rio iio rs vs m 0 m ms fl = false → c.okp rio iio rs vs m 0 (m - 1) ms fl = true →
    c.okp rio iio rs vs m (m - 1) (m + 1) ms fl = true → 0 < m →
    TwOK dit ⟨c.radix, rs, rs, m, ms, 1, 0, 0, m - 1, 1⟩ (iio - rio)
      fun P => c.k (P + ((m - 1 : ℕ) : ℤ) * ms) (P + (iio - rio) + ((m - 1 : ℕ) : ℤ) * ms) (c.W cexp c.radix m 1) rs (m - 1) (m - 1 + 2) 0

/-- contract of a square twiddle codelet (decimation in frequency): transposes as well -/
def KDftwsq.Sound (c : KDftwsq) (cexp : ℕ → ℤ → ℝ × ℝ) : Prop :=
  ∀ rio iio rs vs m mb me ms fl, c.okp rio iio rs vs m mb me ms fl = true → mb ≤ me → me ≤ m →
    TwOK false ⟨c.radix, rs, vs, m, ms, c.radix, vs, rs, mb, me - mb⟩ (iio - rio)
      fun P => c.k (P + (mb : ℤ) * ms) (P + (iio - rio) + (mb : ℤ) * ms)
        (fun i => (Twiddle.compute cexp c.tw (c.radix * m) c.radix m).getD i 0) rs vs mb me ms

end FFTW.DftS
