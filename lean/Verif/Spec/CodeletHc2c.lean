import Verif.Model.Hc2c

/-! # What rdft/ct-hc2c-direct.c requires of a codelet -/

namespace FFTW.Rdft2S
open Tensor Spec

/-- Where a codelet finds its data: column `j`, side `s` (0: `Rp`, `Ip`, which move forwards; 1: `Rm`, `Im`, which move backwards), part `e`
(0: `Rp`, `Rm`; 1: `Ip`, `Im`), row `q`; the pointers point to column `mb`. -/
def h2At (Rp Ip Rm Im : Ptr) (rs ms : ℤ) (mb j s e q : ℕ) : Ptr :=
  if s = 0 then (if e = 0 then Rp else Ip) + ((q : ℤ) * rs + ((j : ℤ) - (mb : ℤ)) * ms)
  else (if e = 0 then Rm else Im) + ((q : ℤ) * rs - ((j : ℤ) - (mb : ℤ)) * ms)

/-- the `F_b` of a column (see `hc2cRow`), `w s e q` being the numbers of the column -/
noncomputable def colRow (via : Hc2cKind) (w : ℕ → ℕ → ℕ → ℝ) (b : ℕ) : ℂ :=
  match via with
  | .viaRdft => ⟨w 0 (b % 2) (b / 2), w 1 (b % 2) (b / 2)⟩
  | .viaDft =>
    let z : ℂ := ⟨w 0 0 (b / 2), w 0 1 (b / 2)⟩
    let z' : ℂ := ⟨w 1 0 (b / 2), w 1 1 (b / 2)⟩
    if b % 2 = 0 then (z + (starRingEnd ℂ) z') / 2 else (z - (starRingEnd ℂ) z') / (2 * Complex.I)

/-- the frequencies `t m + l` of column `l` (see `hc2cSpec`) -/
def colSpec (r : ℕ) (w : ℕ → ℕ → ℕ → ℝ) (t : ℕ) : ℂ :=
  if 2 * t < r then ⟨w 0 0 t, w 0 1 t⟩ else ⟨w 1 0 (r - 1 - t), - w 1 1 (r - 1 - t)⟩

/-- columns `mb .. me-1` are transformed in place, nothing else changes -/
def H2Cols (via : Hc2cKind) (fwd : Bool) (r m : ℕ) (rs ms : ℤ) (mb me : ℕ) (Rp Ip Rm Im : Ptr) (f : State → State) : Prop :=
  (∀ j s e q j' s' e' q' : ℕ, mb ≤ j → j < me → s < 2 → e < 2 → q < r / 2 → mb ≤ j' → j' < me → s' < 2 → e' < 2 → q' < r / 2 →
    h2At Rp Ip Rm Im rs ms mb j s e q = h2At Rp Ip Rm Im rs ms mb j' s' e' q' → j = j' ∧ s = s' ∧ e = e' ∧ q = q') →
  ∀ st : State, Rp.blk < st.next → Ip.blk < st.next → Rm.blk < st.next → Im.blk < st.next →
    Frame st (f st) (fun a => ∃ j s e q : ℕ, mb ≤ j ∧ j < me ∧ s < 2 ∧ e < 2 ∧ q < r / 2 ∧ a = h2At Rp Ip Rm Im rs ms mb j s e q) ∧
    ∀ j : ℕ, mb ≤ j → j < me →
      let w : ℕ → ℕ → ℕ → ℝ := fun s e q => st.mem (h2At Rp Ip Rm Im rs ms mb j s e q)
      let w' : ℕ → ℕ → ℕ → ℝ := fun s e q => (f st).mem (h2At Rp Ip Rm Im rs ms mb j s e q)
      if fwd then ∀ t < r, colSpec r w' t = ∑ b ∈ Finset.range r, ω (r * m) ^ (b * (t * m + j)) * colRow via w b
      else ∀ b < r, colRow via w' b = ∑ t ∈ Finset.range r, (starRingEnd ℂ) (ω (r * m)) ^ (b * (t * m + j)) * colSpec r w t

/-- contract of an hc2c codelet -/
structure KHc2c.Sound (c : KHc2c) (via : Hc2cKind) (cexp : ℕ → ℤ → ℝ × ℝ) : Prop where
  /-- `A((r % 2) == 0)`, rdft/ct-hc2c.c:166 -/
  even : c.radix % 2 = 0
  run : ∀ (m mb me : ℕ) (rs ms : ℤ) (Rp Ip Rm Im : Ptr), 0 < mb → mb ≤ me → 2 * me ≤ m + 1 →
    H2Cols via c.fwd c.radix m rs ms mb me Rp Ip Rm Im (c.k Rp Ip Rm Im (c.W cexp c.radix m) rs mb me ms)

end FFTW.Rdft2S
