import Verif.Proofs.Genfft3

/-!
# C47: the transforms emitted by the codelet generator are DFTs

`Genfft.dft mp sign n input` is the value of the expressions built by genfft/fft.ml's `dft` with parameters `mp` (genfft/magic.ml).
-/

namespace FFTW.Props
open Genfft Finset

/-- the DFT with the given sign of the exponent -/
noncomputable def DFT (sign : ℤ) (n : ℕ) (x : ℕ → ℂ) (k : ℕ) : ℂ :=
  ∑ j ∈ range n, Complex.exp (2 * Real.pi * Complex.I * (sign * j * k : ℤ) / n) * x j

/-- C47: for every size, input, sign, and parameters of the generator that use Rader's algorithm for primes only -/
theorem C47_generator_computes_dft (mp : Magic) (hmp : 2 ≤ mp.raderMin ∧ ∀ p ∈ mp.raderList, p.Prime) (sign : ℤ)
    (hs : sign = 1 ∨ sign = -1) (n : ℕ) (x : ℕ → ℂ) (k : ℕ) (hk : k < n) : dft mp sign n x k = DFT sign n x k :=
  dft_ok mp hmp n sign hs x k hk

/-- the generator's default parameters are such -/
example : 2 ≤ ({} : Magic).raderMin ∧ ∀ p ∈ ({} : Magic).raderList, p.Prime := by
  refine ⟨by decide, ?_⟩
  simp only [List.mem_singleton, forall_eq]
  exact Nat.prime_five

/-! the algorithms, one by one; `rec` is whatever computes the smaller transforms -/

/-- `rec` computes DFTs of size `n` -/
def Computes (rec : Dft) (n : ℕ) : Prop := ∀ sign : ℤ, sign = 1 ∨ sign = -1 → ∀ x, ∀ k < n, rec sign n x k = DFT sign n x k

section
variable (rec : Dft) (sign : ℤ) (hs : sign = 1 ∨ sign = -1) (x : ℕ → ℂ) (k : ℕ)
include hs

/-- small primes by definition, folding conjugate pairs (any odd size, and 2) -/
theorem C47_direct (n : ℕ) (hn : n = 2 ∨ n % 2 = 1) (hk : k < n) : dftPrime sign n x k = DFT sign n x k := by
  have := hs
  exact dftPrime_ok sign n hn x k hk

/-- Cooley-Tukey, any factorisation -/
theorem C47_cooley_tukey (n1 n2 : ℕ) (h1 : Computes rec n1) (h2 : Computes rec n2) (hk : k < n1 * n2) :
    cooleyTukey rec sign (n1 * n2) n1 n2 x k = DFT sign (n1 * n2) x k := cooleyTukey_ok rec sign hs n1 n2 h1 h2 x k hk

/-- Good-Thomas prime factors -/
theorem C47_prime_factor (n1 n2 : ℕ) (hc : Nat.Coprime n1 n2) (h1 : Computes rec n1) (h2 : Computes rec n2) (hk : k < n1 * n2) :
    primeFactor rec sign (n1 * n2) n1 n2 x k = DFT sign (n1 * n2) x k := primeFactor_ok rec sign hs n1 n2 hc h1 h2 x k hk

/-- conjugate-pair split radix, decimation in time -/
theorem C47_split_radix_dit (m : ℕ) (h1 : Computes rec m) (h2 : Computes rec (2 * m)) (hk : k < 4 * m) :
    splitRadixDit rec sign (4 * m) x k = DFT sign (4 * m) x k := splitRadixDit_ok rec sign hs m h1 h2 x k hk

/-- split radix, decimation in frequency -/
theorem C47_split_radix_dif (m : ℕ) (h1 : Computes rec m) (h2 : Computes rec (2 * m)) (hk : k < 4 * m) :
    splitRadixDif rec sign (4 * m) x k = DFT sign (4 * m) x k := splitRadixDif_ok rec sign hs m h1 h2 x k hk

/-- the rescaled split-radix algorithm, powers of two -/
theorem C47_newsplit (e : ℕ) (hk : k < 2 ^ e) : newsplit0 sign (2 ^ e) x k = DFT sign (2 ^ e) x k := (newsplit_ok hs e x k hk).1

/-- Rader, with either convolution (`mp.alternateConvolution`) -/
theorem C47_rader (mp : Magic) (p : ℕ) (hp : p.Prime) (h : Computes rec (p - 1)) (hk : k < p) :
    dftRader mp rec sign p x k = DFT sign p x k := by
  have := hs
  exact dftRader_ok mp rec sign p hp h x k hk
end

/-- the generator's search for a primitive root succeeds for every prime -/
theorem C47_find_generator (p : ℕ) (hp : p.Prime) : ∃ g, findGenerator p = some g ∧ 0 < g ∧ g < p ∧
    ∀ a, 0 < a → a < p → ∃ i < p - 1, g ^ i % p = a := by
  haveI : Fact p.Prime := ⟨hp⟩
  obtain ⟨g, hg, h0, h1, ho⟩ := findGenerator_ok (p := p)
  refine ⟨g, hg, h0, h1, fun a ha0 ha => ?_⟩
  by_contra hcon
  push Not at hcon
  have hs := sum_gen (p := p) h0 h1 ho (fun x => if x = a then (1 : ℕ) else 0)
  rw [Finset.sum_eq_zero (s := range (p - 1))] at hs
  · rw [Finset.sum_ite_eq' ] at hs
    simp at hs
    omega
  · intro i hi
    simp [hcon i (mem_range.1 hi)]

/-- multiplication with three real products instead of four (`-threemult`) is exact -/
theorem C47_threemult (x y : ℂ) : times3x3 x y = x * y := times3x3_eq x y

end FFTW.Props
