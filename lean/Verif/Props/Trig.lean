import Verif.Proofs.Trig

/-!
# C13, C14: twiddle factors (kernel/trig.c) are exact roots of unity

`COS`/`SIN` stand for the C library functions.  They are only assumed right on `[0, π/4]`: the theorems hold
whatever they return elsewhere, i.e. the code never relies on them outside the first octant.
-/

namespace FFTW.Props
open FFTW.Trig Real

/-- the C library is exact on the first octant -/
def GoodTrig (COS SIN : ℝ → ℝ) : Prop := ∀ x, 0 ≤ x → x ≤ π / 4 → COS x = cos x ∧ SIN x = sin x

/-- C13: octant reduction returns `exp(2πi m/n)`, for every `n ≥ 1` and every `|m| ≤ n` -/
theorem C13_real_cexp (COS SIN : ℝ → ℝ) (h : GoodTrig COS SIN) (m n : Int) (hn : 0 < n) (h1 : -n ≤ m) (h2 : m ≤ n) :
    realCexp COS SIN m n = (cos (2 * π * m / n), sin (2 * π * m / n)) :=
  realCexp_eq (fun x a b => (h x a b).1) (fun x a b => (h x a b).2) hn h1 h2

/-- C13: `rotate_generic` multiplies by `exp(-2πi m/n)` -/
theorem C13_rotate_generic (COS SIN : ℝ → ℝ) (h : GoodTrig COS SIN) (m n : Int) (hn : 0 < n) (h1 : -n ≤ m) (h2 : m ≤ n)
    (xr xi : ℝ) : let y := rotateGeneric COS SIN n m xr xi
    (⟨y.1, y.2⟩ : ℂ) = ⟨xr, xi⟩ * Complex.exp (-2 * π * Complex.I * m / n) := by
  intro y
  have e : (-2 * π * Complex.I * m / n : ℂ) = ((-(2 * π * m / n) : ℝ) : ℂ) * Complex.I := by push_cast; ring
  rw [e, Complex.exp_mul_I, ← Complex.ofReal_cos, ← Complex.ofReal_sin]
  simp only [y, rotateGeneric, C13_real_cexp COS SIN h m n hn h1 h2]
  apply Complex.ext <;> simp [-Complex.ofReal_cos, -Complex.ofReal_sin] <;> ring

/-- C14: the square-root-size tables give the same root of unity, with all table accesses in bounds -/
theorem C14_sqrtn_table (COS SIN : ℝ → ℝ) (h : GoodTrig COS SIN) (m : Int) (n : ℕ) (h1 : -(n : Int) ≤ m) (h2 : m < n) :
    cexplSqrtn (mkSqrtn COS SIN n) m = some (cos (2 * π * m / n), sin (2 * π * m / n)) :=
  cexplSqrtn_eq (fun x a b => (h x a b).1) (fun x a b => (h x a b).2) h1 h2

/-- C14: and `rotate` with these tables multiplies by `exp(-2πi m/n)` -/
theorem C14_rotate_sqrtn (COS SIN : ℝ → ℝ) (h : GoodTrig COS SIN) (m : Int) (n : ℕ) (h1 : -(n : Int) ≤ m) (h2 : m < n)
    (xr xi : ℝ) : ∃ y, rotateSqrtn (mkSqrtn COS SIN n) m xr xi = some y ∧
    (⟨y.1, y.2⟩ : ℂ) = ⟨xr, xi⟩ * Complex.exp (-2 * π * Complex.I * m / n) := by
  unfold rotateSqrtn
  rw [C14_sqrtn_table COS SIN h m n h1 h2]
  refine ⟨_, rfl, ?_⟩
  have e : (-2 * π * Complex.I * m / n : ℂ) = ((-(2 * π * m / n) : ℝ) : ℂ) * Complex.I := by push_cast; ring
  rw [e, Complex.exp_mul_I, ← Complex.ofReal_cos, ← Complex.ofReal_sin]
  apply Complex.ext <;> simp [-Complex.ofReal_cos, -Complex.ofReal_sin] <;> ring

/-- C14: the tables have about `√n` entries each: `W0` at most `2(n+1)` reals never more than `4√n` pairs -/
theorem C14_table_size (COS SIN : ℝ → ℝ) (n : ℕ) (hn : 0 < n) :
    (mkSqrtn COS SIN n).twradix ^ 2 ≤ 4 * n ∧ n < (mkSqrtn COS SIN n).twradix ^ 2 := by
  obtain ⟨h1, h2⟩ := chooseTwshft_spec n
  have e : (mkSqrtn COS SIN n).twradix ^ 2 = 4 ^ chooseTwshft n := by
    simp only [mkSqrtn, Nat.one_shiftLeft]
    rw [← pow_mul, mul_comm, pow_mul]; norm_num
  rw [e]
  exact ⟨h2 hn, h1⟩

-- the true functions meet the hypothesis, and so does a library that is wrong outside the octant
example : GoodTrig cos sin := fun _ _ _ => ⟨rfl, rfl⟩
example : GoodTrig (fun x => if x ≤ π / 4 then cos x else 17) sin := fun x _ h => ⟨by simp [h], rfl⟩
example : realCexp cos sin (-5) 7 = (cos (2 * π * ((-5 : Int) : ℝ) / ((7 : Int) : ℝ)), sin (2 * π * ((-5 : Int) : ℝ) / ((7 : Int) : ℝ))) :=
  C13_real_cexp cos sin (fun _ _ _ => ⟨rfl, rfl⟩) (-5) 7 (by norm_num) (by norm_num) (by norm_num)

end FFTW.Props
