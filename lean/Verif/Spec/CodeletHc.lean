import Verif.Model.Hc2hc

/-! # What rdft/hc2hc-direct.c requires of a codelet -/

namespace FFTW.RdftS
open Tensor Spec

/-- Where a codelet finds its data: of column `j` the real part (`c = 0`) or imaginary part (`c = 1`) in row `k`; `cr` and `ci` point to column
`mb`, and the imaginary parts lie backwards. -/
def hcAt2 (cr ci : Ptr) (rs ms : ℤ) (mb c j k : ℕ) : Ptr :=
  if c = 0 then cr + ((k : ℤ) * rs + ((j : ℤ) - (mb : ℤ)) * ms) else ci + ((k : ℤ) * rs - ((j : ℤ) - (mb : ℤ)) * ms)

/-- columns `mb .. me-1` are transformed in place, nothing else changes -/
def HcCols (fwd : Bool) (r m : ℕ) (rs ms : ℤ) (mb me : ℕ) (cr ci : Ptr) (f : State → State) : Prop :=
  (∀ c j k c' j' k' : ℕ, c < 2 → mb ≤ j → j < me → k < r → c' < 2 → mb ≤ j' → j' < me → k' < r →
    hcAt2 cr ci rs ms mb c j k = hcAt2 cr ci rs ms mb c' j' k' → c = c' ∧ j = j' ∧ k = k') →
  ∀ st : State, cr.blk < st.next → ci.blk < st.next →
    Frame st (f st) (fun q => ∃ c j k : ℕ, c < 2 ∧ mb ≤ j ∧ j < me ∧ k < r ∧ q = hcAt2 cr ci rs ms mb c j k) ∧
    ∀ j k : ℕ, mb ≤ j → j < me → k < r →
      (⟨(f st).mem (hcAt2 cr ci rs ms mb 0 j k), (f st).mem (hcAt2 cr ci rs ms mb 1 j k)⟩ : ℂ) =
        hcColumn fwd r m j (fun k => ⟨st.mem (hcAt2 cr ci rs ms mb 0 j k), st.mem (hcAt2 cr ci rs ms mb 1 j k)⟩) k

/-- contract of an hc2hc codelet -/
def KHc2hc.Sound (c : KHc2hc) (cexp : ℕ → ℤ → ℝ × ℝ) : Prop :=
  ∀ (m mb me : ℕ) (rs ms : ℤ) (cr ci : Ptr), 0 < mb → mb ≤ me → 2 * me ≤ m + 1 →
    HcCols c.fwd c.radix m rs ms mb me cr ci (c.k cr ci (c.W cexp c.radix m) rs mb me ms)

end FFTW.RdftS
