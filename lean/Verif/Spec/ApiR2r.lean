import Verif.Spec.Api
import Verif.Spec.R2r

/-!
# What the user of the r2r interface is promised

The manual, "1d Real-even DFTs (DCTs)", "1d Real-odd DFTs (DSTs)", "1d Discrete Hartley Transforms (DHTs)", "The Halfcomplex-format DFT" and
"Multi-dimensional Transforms": "the multi-dimensional r2r transforms are the separable product of one-dimensional transforms along each dimension".
-/

namespace FFTW.Spec

/-- `fftw_r2r_kind`, api/fftw3.h -/
inductive R2rKind
  | FFTW_R2HC | FFTW_HC2R | FFTW_DHT
  | FFTW_REDFT00 | FFTW_REDFT01 | FFTW_REDFT10 | FFTW_REDFT11
  | FFTW_RODFT00 | FFTW_RODFT01 | FFTW_RODFT10 | FFTW_RODFT11
  deriving DecidableEq

namespace R2rKind

/-- output `k` of the one-dimensional transform of `x` -/
noncomputable def doc : R2rKind → ℕ → (ℕ → ℝ) → ℕ → ℝ
  | FFTW_R2HC, n, x, k => if 2 * k ≤ n then (dftR n x k).re else (dftR n x (n - k)).im
  | FFTW_HC2R, n, h, k => (∑ q ∈ Finset.range n, hcSpectrum n h q * Complex.exp (2 * Real.pi * Complex.I * q * k / n)).re
  | FFTW_DHT, n, x, k => docR2r .DHT n x k
  | FFTW_REDFT00, n, x, k => docR2r .REDFT00 n x k
  | FFTW_REDFT01, n, x, k => docR2r .REDFT01 n x k
  | FFTW_REDFT10, n, x, k => docR2r .REDFT10 n x k
  | FFTW_REDFT11, n, x, k => docR2r .REDFT11 n x k
  | FFTW_RODFT00, n, x, k => docR2r .RODFT00 n x k
  | FFTW_RODFT01, n, x, k => docR2r .RODFT01 n x k
  | FFTW_RODFT10, n, x, k => docR2r .RODFT10 n x k
  | FFTW_RODFT11, n, x, k => docR2r .RODFT11 n x k

/-- DCTs and DSTs -/
def trig : R2rKind → Bool
  | FFTW_R2HC | FFTW_HC2R | FFTW_DHT => false
  | _ => true

/-- the inverse of each kind -/
def inv : R2rKind → R2rKind
  | FFTW_R2HC => FFTW_HC2R
  | FFTW_HC2R => FFTW_R2HC
  | FFTW_REDFT01 => FFTW_REDFT10
  | FFTW_REDFT10 => FFTW_REDFT01
  | FFTW_RODFT01 => FFTW_RODFT10
  | FFTW_RODFT10 => FFTW_RODFT01
  | k => k

/-- "the logical size of the DFT", by which a transform followed by its inverse multiplies -/
def logical : R2rKind → ℕ → ℕ
  | FFTW_R2HC, n | FFTW_HC2R, n | FFTW_DHT, n => n
  | FFTW_REDFT00, n => 2 * (n - 1)
  | FFTW_RODFT00, n => 2 * (n + 1)
  | _, n => 2 * n

end R2rKind

/-- multi-dimensional transform: a one-dimensional transform along each dimension -/
noncomputable def docNd : List R2rKind → List ℕ → (List ℕ → ℝ) → List ℕ → ℝ
  | kd :: kds, n :: ns, x, k :: ks => kd.doc n (fun j => docNd kds ns (fun js => x (j :: js)) ks) k
  | _, _, x, _ => x []

/-- "REDFT00 … n must be at least 2" (manual) -/
def SizesOk (kinds : List R2rKind) (n : List ℕ) : Prop := List.Forall₂ (fun (kd : R2rKind) (n : ℕ) => kd = .FFTW_REDFT00 → 2 ≤ n) kinds n

/-- `go` shows at the output places the transforms of what `gi` shows at the input places -/
def R2rs (kinds : List R2rKind) (B : Batch) (gi go : ℤ → ℝ) : Prop :=
  ∀ b k, Box B.v b → Box B.n k → go (B.out b k) = docNd kinds B.n (fun j => gi (B.inp b j)) k

/-- the reals at the given positions of an array -/
def RMem (r : Ptr) (P : ℤ → Prop) (q : Ptr) : Prop := ∃ x, P x ∧ q = r + x

/-- the same array, or arrays without common memory -/
def SeparateR (B : Batch) (inp out : Ptr) : Prop := inp = out ∨ ∀ q, RMem inp B.Inp q → ¬ RMem out B.Out q

/-- every element of the result is stored where the input element with the same indices was -/
def Batch.Straight (B : Batch) : Prop := (∀ x ∈ B.v, 0 < x) ∧ ∀ b j, Box B.v b → Box B.n j → B.inp b j = B.out b j

end FFTW.Spec
