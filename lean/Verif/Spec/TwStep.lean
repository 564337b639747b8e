import Verif.Spec.Contract

/-!
# The twiddle step of Cooley-Tukey

`v` batches of `m` columns of `r` elements; columns `mb .. mb+mc-1` are transformed in place.  Column `l` consists of the
elements `x_j` at `j*irs + l*ms + i*ivs` and becomes, at `k*ors + l*ms + i*ovs`,

* decimation in time: `∑_j ω_r^(jk) (ω_{rm}^(jl) x_j)`;
* decimation in frequency: `ω_{rm}^(kl) ∑_j ω_r^(jk) x_j`.
-/

namespace FFTW
open Tensor Spec

/-- arguments of `ct_mkinferior`, dft/ct.h:26-31 (`mb`, `mc`: `mstart`, `mcount`) -/
structure TwP where
  r : ℕ
  irs : ℤ
  ors : ℤ
  m : ℕ
  ms : ℤ
  v : ℕ
  ivs : ℤ
  ovs : ℤ
  mb : ℕ
  mc : ℕ

/-- locations of the step, relative to column `mb` -/
def TwP.locT (t : TwP) (δ : ℤ) : Tensor := some [⟨2, δ, δ⟩, ⟨t.r, t.irs, t.ors⟩, ⟨t.mc, t.ms, t.ms⟩, ⟨t.v, t.ivs, t.ovs⟩]

namespace Spec

/-- the new element `k` of column `l`, given the old column `x` -/
noncomputable def twStep (dit : Bool) (r m l k : ℕ) (x : ℕ → ℂ) : ℂ :=
  if dit then ∑ j ∈ Finset.range r, ω r ^ (j * k) * (ω (r * m) ^ (j * l) * x j)
  else ω (r * m) ^ (k * l) * ∑ j ∈ Finset.range r, ω r ^ (j * k) * x j

/-- contract of a twiddle step -/
def TwOK (dit : Bool) (t : TwP) (δ : ℤ) (f : Ptr → State → State) : Prop :=
  (outs (t.locT δ)).Nodup → ins (t.locT δ) = outs (t.locT δ) → ∀ P st, P.blk < st.next →
    Frame st (f P st) (fun q => ∃ b ∈ outs (t.locT δ), q = P + ((t.mb : ℤ) * t.ms + b)) ∧
    ∀ k l i : ℕ, k < t.r → t.mb ≤ l → l < t.mb + t.mc → i < t.v →
      (val (f P st).mem P δ (k * t.ors + l * t.ms + i * t.ovs) : ℂ) =
        twStep dit t.r t.m l k fun j => val st.mem P δ (j * t.irs + l * t.ms + i * t.ivs)

end Spec
end FFTW
