import Verif.Spec.MpiDft
import Verif.Proofs.DftMath

/-! forward and backward transforms -/

namespace FFTW.Mpi
open Tensor Spec

theorem elt_fwd (vn : ℕ) (comm : Comm) (P : ℕ → Ptr) (st : Dist) (pl : ℕ × ℕ) (v : ℕ) : elt false vn comm P st pl v = cplx vn comm P st pl v := rfl

/-- exchange real and imaginary part -/
def swapc (z : ℂ) : ℂ := ⟨z.im, z.re⟩

theorem elt_bwd (vn : ℕ) (comm : Comm) (P : ℕ → Ptr) (st : Dist) (pl : ℕ × ℕ) (v : ℕ) : elt true vn comm P st pl v = swapc (cplx vn comm P st pl v) := rfl

theorem swapc_eq (z : ℂ) : swapc z = Complex.I * (starRingEnd ℂ) z := by
  apply Complex.ext <;> simp [swapc]

theorem swapc_swapc (z : ℂ) : swapc (swapc z) = z := rfl

theorem swapc_sum {ι : Type} (s : Finset ι) (f : ι → ℂ) : swapc (∑ i ∈ s, f i) = ∑ i ∈ s, swapc (f i) := by
  simp only [swapc_eq, map_sum, Finset.mul_sum]

theorem swapc_mul (a z : ℂ) : swapc (a * z) = (starRingEnd ℂ) a * swapc z := by
  simp only [swapc_eq, map_mul]; ring

theorem kern_fwd (n j k : ℕ) : dftK () n j k = Complex.exp ((if false = true then 1 else -1) * (2 * Real.pi * Complex.I) * (j * k) / n) := by
  show ω n ^ (j * k) = _
  rw [ω_pow]
  congr 1
  simp only [Bool.false_eq_true, if_false]
  push_cast
  ring

theorem kern_bwd (n j k : ℕ) : (starRingEnd ℂ) (dftK () n j k) = Complex.exp ((if true = true then 1 else -1) * (2 * Real.pi * Complex.I) * (j * k) / n) := by
  show (starRingEnd ℂ) (ω n ^ (j * k)) = _
  rw [ω_pow, ← Complex.exp_conj]
  congr 1
  simp only [if_true, map_mul, map_neg, Complex.conj_I, Complex.conj_ofReal, map_div₀, map_natCast, map_ofNat]
  push_cast
  ring

theorem dftSum_fwd : ∀ (ns k : List ℕ) (x : List ℕ → ℂ), dftSum ns k x = mdft false ns k x
  | n :: ns, k :: ks, x => by
    show ∑ j ∈ _, _ = ∑ j ∈ _, _
    refine Finset.sum_congr rfl fun j _ => ?_
    rw [kern_fwd, dftSum_fwd ns ks]
  | [], _, x => by cases ‹List ℕ› <;> rfl
  | _ :: _, [], x => rfl

theorem dftSum_bwd : ∀ (ns k : List ℕ) (x : List ℕ → ℂ), swapc (dftSum ns k x) = mdft true ns k fun j => swapc (x j)
  | n :: ns, k :: ks, x => by
    show swapc (∑ j ∈ _, _) = ∑ j ∈ _, _
    rw [swapc_sum]
    refine Finset.sum_congr rfl fun j _ => ?_
    rw [swapc_mul, kern_bwd, dftSum_bwd ns ks]
  | [], _, x => by cases ‹List ℕ› <;> rfl
  | _ :: _, [], x => rfl

/-- the contract in terms of complex numbers -/
theorem dok_cplx {nd : Bool} {p : MDftP} {f : MPlan} (h : DOK nd p f) {I O : ℕ → Ptr} {st : Dist} (hc : MCompat p.comm p.space p.inpl I O st) :
    MFrame p.comm p.space nd I O st (f I O st) ∧ ∀ k, Index (p.sz.map fun d => d.n) k → ∀ v < p.vn,
      cplx p.vn p.comm O (f I O st) (p.outAt k) v = mdft p.bwd (p.sz.map fun d => d.n) k fun j => cplx p.vn p.comm I st (p.inAt j) v := by
  obtain ⟨h1, h2⟩ := h I O st hc
  refine ⟨h1, fun k hk v hv => ?_⟩
  have := h2 k hk v hv
  rcases hb : p.bwd with _ | _
  · rw [hb] at this
    simp only [elt_fwd, dftSum_fwd] at this
    exact this
  · rw [hb] at this
    simp only [elt_bwd] at this
    have := congrArg swapc this
    rw [dftSum_bwd] at this
    exact this

end FFTW.Mpi
