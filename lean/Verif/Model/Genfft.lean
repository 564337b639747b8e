import Mathlib.Analysis.SpecialFunctions.Complex.Log
import Mathlib.Analysis.SpecialFunctions.Trigonometric.Basic

/-!
# The symbolic FFT of the codelet generator: genfft/fft.ml, with genfft/util.ml and genfft/complex.ml

The generator builds expression trees.  What is modelled is the value of those trees: a complex expression `CE (a, b)` (genfft/complex.ml:27) is
the complex number `a + bi`, `@*`, `@+`, `@-`, `sigma`, `conj`, `real`, `imag`, `uminus` are the operations they are named after
(genfft/complex.ml:35-127), `exp n m` is `exp(2πim/n)` (73-75) with exact constants (genfft/number.ml rounds to 50 digits), and
the simplifier, the scheduler and the C printer are not modelled.  OCaml's exceptions and non-termination are `none` in the number-theoretic
helpers, and give the value 0 where an expression is wanted; so does reading outside an `array`.  Machine integers are unbounded.
-/

namespace FFTW.Genfft

/-! ### genfft/util.ml -/

/-- `gcd`, util.ml:37-44.  `gcd 0 m` raises `Division_by_zero` in OCaml; here it is `m`. -/
def gcd (n m : ℕ) : ℕ :=
  if h0 : n = 0 then m
  else if n > m then gcd m n
  else if m % n = 0 then n else gcd (m % n) n
termination_by (n, m)
decreasing_by
  · simp_wf; left; omega
  · simp_wf; left; exact Nat.mod_lt _ (by omega)

/-- `period`, util.ml:64-66 -/
def period (p x prod : ℕ) : Option ℕ :=
  if prod = 1 then some 1 else do
    let q ← period p x (prod * x % p)
    return 1 + q
partial_fixpoint

/-- `findgen`, util.ml:67-70 -/
def findgen (p x : ℕ) : Option ℕ :=
  if x = 0 then none else do
    let q ← period p x x
    if q = p - 1 then some x else findgen p ((x + 1) % p)
partial_fixpoint

/-- `find_generator`, util.ml:63-71 -/
def findGenerator (p : ℕ) : Option ℕ := findgen p 1

/-- `pow_mod`, util.ml:79-83 -/
def powMod (x n p : ℕ) : ℕ :=
  if n = 0 then 1
  else if n % 2 = 0 then powMod (x * x % p) (n / 2) p
  else x * powMod x (n - 1) p % p
termination_by n

/-- `suchthat`, util.ml:130-131 -/
def suchthat (a : ℕ) (pred : ℕ → Bool) : Option ℕ :=
  if pred a then some a else suchthat (a + 1) pred
partial_fixpoint

/-- `array`, util.ml:151-153: out-of-bounds accesses give 0 (OCaml: an exception) -/
def array {α : Type} [Zero α] (n : ℕ) (f : ℕ → α) (i : ℕ) : α := if i < n then f i else 0

/-! ### genfft/complex.ml -/

/-- `exp`, complex.ml:73-75 -/
noncomputable def cis (n : ℕ) (m : ℤ) : ℂ := Complex.exp (2 * Real.pi * Complex.I * m / n)

/-- `sigma`, complex.ml:110 -/
noncomputable def sigma (a b : ℕ) (f : ℕ → ℂ) : ℂ := ((List.range' a (b - a)).map f).sum

/-- `sec`, complex.ml:78-80 -/
noncomputable def sec (n : ℕ) (m : ℤ) : ℂ := (1 / (cis n m).re : ℝ)
/-- `real`, complex.ml:103 -/
noncomputable def real (x : ℂ) : ℂ := (x.re : ℂ)
/-- `imag`, complex.ml:104 -/
noncomputable def imag (x : ℂ) : ℂ := (x.im : ℂ)
/-- `conj`, complex.ml:106 -/
noncomputable def conj (x : ℂ) : ℂ := ⟨x.re, -x.im⟩
/-- `inverse_int`, complex.ml:37-38 -/
noncomputable def inverseInt (n : ℕ) : ℂ := (1 : ℂ) / n

/-- `times3x3`, complex.ml:51-55: complex multiplication with three real ones, used by `times` (57-64) if `-threemult` is given -/
def times3x3 (x y : ℂ) : ℂ :=
  ⟨y.re * (x.re - x.im) + x.im * (y.re - y.im), x.re * (y.re + y.im) - y.re * (x.re - x.im)⟩

/-! ### genfft/fft.ml -/

/-- genfft/magic.ml: the parameters read by fft.ml -/
structure Magic where
  raderMin : ℕ := 13
  raderList : List ℕ := [5]
  alternateConvolution : ℕ := 17
  newsplit : Bool := false
  difSplitRadix : Bool := false

/-- the loop of `choose1` and `choose2`, fft.ml:33-37 and 41-45 -/
def chooseLoop (n : ℕ) (ok : ℕ → Bool) (i f : ℕ) : ℕ :=
  if i * i > n then f
  else if ok i then chooseLoop n ok (i + 1) i
  else chooseLoop n ok (i + 1) f
termination_by n + 1 - i
decreasing_by all_goals simp_wf; have : i ≤ i * i := Nat.le_mul_self i; omega

/-- `choose_factor`, fft.ml:30-49 -/
def chooseFactor (n : ℕ) : ℕ :=
  let i := chooseLoop n (fun i => n % i = 0 && gcd i (n / i) = 1) 1 1
  if i > 1 then i else chooseLoop n (fun i => n % i = 0) 1 1

/-- `is_power_of_two`, fft.ml:51 -/
def isPowerOfTwo (n : ℕ) : Bool := n > 0 && (n - 1) &&& n = 0

/-- a complex signal, and the type of `dft`: sign, size, input -/
abbrev Signal := ℕ → ℂ
abbrev Dft := ℤ → ℕ → Signal → Signal

/-- `dft_prime`, the case of small primes, fft.ml:53-78 -/
noncomputable def dftPrime (sign : ℤ) (n : ℕ) (input : Signal) : Signal :=
  let sum (filter : ℂ → ℂ) (i : ℕ) : ℂ := sigma 0 n fun j => filter (cis n (sign * i * j)) * input j
  if n = 2 then array n (sum id)
  else
    let sumr := array n (sum real)
    let sumi := array n (sum fun x => Complex.I * imag x)
    array n fun i =>
      if i = 0 then input 0 + sigma 1 ((n + 1) / 2) fun j => input j + input (n - j)
      else
        let i' := min i (n - i)
        if i < n - i then sumr i' + sumi i' else sumr i' - sumi i'

/-- `make_product`, fft.ml:86-88 -/
noncomputable def makeProduct (n : ℕ) (a b : Signal) : Signal := array n fun i => a i * (inverseInt n * b i)

/-- `gen_convolution_by_fft`, fft.ml:92-102.  Here and below `rec` is the recursive call to `dft`. -/
noncomputable def convFft (rec : Dft) (n : ℕ) (a b : Signal) (addtoall : ℂ) : ℂ × Signal :=
  let fft_a := rec 1 n a
  let fft_b := rec 1 n b
  let fft_ab := makeProduct n fft_a fft_b
  let dc_term (i : ℕ) : ℂ := if i = 0 then addtoall else 0
  let fft_ab1 := array n fun i => fft_ab i + dc_term i
  (fft_a 0, rec (-1) n fft_ab1)

/-- `gen_convolution_by_fft_alt`, fft.ml:106-131 -/
noncomputable def convAlt (rec : Dft) (n : ℕ) (a b : Signal) (addtoall : ℂ) : ℂ × Signal :=
  let half (x : ℂ) : ℂ := inverseInt 2 * x
  let ap := array n fun i => half (a i + a ((n - i) % n))
  let am := array n fun i => half (a i - a ((n - i) % n))
  let bp := array n fun i => half (b i + b ((n - i) % n))
  let bm := array n fun i => half (b i - b ((n - i) % n))
  let fft_ap := rec 1 n ap
  let fft_am := rec 1 n am
  let fft_bp := rec 1 n bp
  let fft_bm := rec 1 n bm
  let fft_abpp := makeProduct n fft_ap fft_bp
  let fft_abpm := makeProduct n fft_ap fft_bm
  let fft_abmp := makeProduct n fft_am fft_bp
  let fft_abmm := makeProduct n fft_am fft_bm
  let sum := fft_ap 0 + fft_am 0
  let dc_term (i : ℕ) : ℂ := if i = 0 then addtoall else 0
  let fft_ab1 := array n fun i => (fft_abpp i + fft_abmm i) + dc_term i
  let fft_ab2 := array n fun i => fft_abpm i + fft_abmp i
  let conv1 := rec (-1) n fft_ab1
  let conv2 := rec (-1) n fft_ab2
  (sum, array n fun i => conv1 i + conv2 i)

/-- `dft_rader`, fft.ml:81-160 -/
noncomputable def dftRader (mp : Magic) (rec : Dft) (sign : ℤ) (p : ℕ) (input : Signal) : Signal :=
  match findGenerator p with
  | none => 0
  | some g =>
    let ginv := powMod g (p - 2) p
    let input_perm := array p fun i => input (powMod g i p)
    let omega_perm := array p fun i => cis p (sign * powMod ginv i p)
    let output_perm := array p fun i => powMod ginv i p
    let sc := if p ≤ mp.alternateConvolution then convAlt rec (p - 1) input_perm omega_perm (input 0)
      else convFft rec (p - 1) input_perm omega_perm (input 0)
    array p fun i =>
      if i = 0 then input 0 + sc.1
      else match suchthat 0 fun i' => i = output_perm i' with
        | none => 0
        | some i' => sc.2 i'

/-! the scaled conjugate-pair split-radix algorithm (`-newsplit`) -/

/-- `k4'` in fft.ml:170-171 and 178-179 -/
def k4' (n : ℕ) (k : ℤ) : ℕ :=
  let k4 := k.natAbs % (n / 4)
  if k4 ≤ n / 8 then k4 else n / 4 - k4

/-- `s`, fft.ml:166-172 -/
noncomputable def s (n : ℕ) (k : ℤ) : ℂ :=
  if n ≤ 4 then 1 else s (n / 4) (k4' n k) * real (cis n (k4' n k))
termination_by n

/-- `sinv`, fft.ml:174-180 -/
noncomputable def sinv (n : ℕ) (k : ℤ) : ℂ :=
  if n ≤ 4 then 1 else sinv (n / 4) (k4' n k) * sec n (k4' n k)
termination_by n

/-- `sdiv2`, fft.ml:182 -/
noncomputable def sdiv2 (n : ℕ) (k : ℤ) : ℂ := s n k * sinv (2 * n) k
/-- `sdiv4`, fft.ml:183-185 -/
noncomputable def sdiv4 (n : ℕ) (k : ℤ) : ℂ :=
  let k4 := k.natAbs % n
  sec (4 * n) (if k4 ≤ n / 2 then k4 else n - k4 : ℕ)

/-- `t`, fft.ml:187 -/
noncomputable def t (n : ℕ) (k : ℤ) : ℂ := cis n k * sdiv4 (n / 4) k

/-- `dft2`, fft.ml:190 -/
noncomputable def dft2 (input : Signal) : Signal := array 2 fun k => input 0 + input 1 * cis 2 k

mutual
/-- `newsplit0`, fft.ml:192-202.  The first test is `n == 1` in OCaml, where size 0 would loop. -/
noncomputable def newsplit0 (sign : ℤ) (n : ℕ) (input : Signal) : Signal :=
  if n ≤ 1 then input
  else if n = 2 then dft2 input
  else
    let u := newsplit0 sign (n / 2) fun i => input (i * 2)
    let z := newsplitS sign (n / 4) fun i => input (i * 4 + 1)
    let z' := newsplitS sign (n / 4) fun i => input ((n + i * 4 - 1) % n)
    let twid := array n fun k => s (n / 4) k * cis n (sign * k)
    let w := array n fun k => twid k * z (k % (n / 4))
    let w' := array n fun k => conj (twid k) * z' (k % (n / 4))
    let ww := array n fun k => w k + w' k
    array n fun k => u (k % (n / 2)) + ww k
termination_by n

/-- `newsplitS`, fft.ml:204-213 -/
noncomputable def newsplitS (sign : ℤ) (n : ℕ) (input : Signal) : Signal :=
  if n ≤ 1 then input
  else if n = 2 then dft2 input
  else
    let u := newsplitS2 sign (n / 2) fun i => input (i * 2)
    let z := newsplitS sign (n / 4) fun i => input (i * 4 + 1)
    let z' := newsplitS sign (n / 4) fun i => input ((n + i * 4 - 1) % n)
    let w := array n fun k => t n (sign * k) * z (k % (n / 4))
    let w' := array n fun k => conj (t n (sign * k)) * z' (k % (n / 4))
    let ww := array n fun k => w k + w' k
    array n fun k => u (k % (n / 2)) + ww k
termination_by n

/-- `newsplitS2`, fft.ml:215-224 -/
noncomputable def newsplitS2 (sign : ℤ) (n : ℕ) (input : Signal) : Signal :=
  if n ≤ 1 then input
  else if n = 2 then dft2 input
  else
    let u := newsplitS4 sign (n / 2) fun i => input (i * 2)
    let z := newsplitS sign (n / 4) fun i => input (i * 4 + 1)
    let z' := newsplitS sign (n / 4) fun i => input ((n + i * 4 - 1) % n)
    let w := array n fun k => t n (sign * k) * z (k % (n / 4))
    let w' := array n fun k => conj (t n (sign * k)) * z' (k % (n / 4))
    let ww := array n fun k => (w k + w' k) * sdiv2 n k
    array n fun k => u (k % (n / 2)) + ww k
termination_by n

/-- `newsplitS4`, fft.ml:226-237 -/
noncomputable def newsplitS4 (sign : ℤ) (n : ℕ) (input : Signal) : Signal :=
  if n ≤ 1 then input
  else if n = 2 then
    let f := dft2 input
    array 2 fun k => f k * sinv 8 k
  else
    let u := newsplitS2 sign (n / 2) fun i => input (i * 2)
    let z := newsplitS sign (n / 4) fun i => input (i * 4 + 1)
    let z' := newsplitS sign (n / 4) fun i => input ((n + i * 4 - 1) % n)
    let w := array n fun k => t n (sign * k) * z (k % (n / 4))
    let w' := array n fun k => conj (t n (sign * k)) * z' (k % (n / 4))
    let ww := array n fun k => w k + w' k
    array n fun k => (u (k % (n / 2)) + ww k) * sdiv4 n k
termination_by n
end

/-- `cooley_tukey`, fft.ml:242-251 -/
noncomputable def cooleyTukey (rec : Dft) (sign : ℤ) (n n1 n2 : ℕ) (input : Signal) : Signal :=
  let tmp1 : ℕ → Signal := array n2 fun i2 => rec sign n1 fun i1 => input (i1 * n2 + i2)
  let tmp2 : ℕ → Signal := array n1 fun i1 => array n2 fun i2 => cis n (sign * i1 * i2) * tmp1 i2 i1
  let tmp3 : ℕ → Signal := array n1 fun i1 => rec sign n2 (tmp2 i1)
  fun i => tmp3 (i % n1) (i / n1)

/-- `split_radix_dit`, fft.ml:256-265 -/
noncomputable def splitRadixDit (rec : Dft) (sign : ℤ) (n : ℕ) (input : Signal) : Signal :=
  let f0 := rec sign (n / 2) fun i => input (i * 2)
  let f10 := rec sign (n / 4) fun i => input (i * 4 + 1)
  let f11 := rec sign (n / 4) fun i => input ((n + i * 4 - 1) % n)
  let g10 := array n fun k => cis n (sign * k) * f10 (k % (n / 4))
  let g11 := array n fun k => cis n (-sign * k) * f11 (k % (n / 4))
  let g1 := array n fun k => g10 k + g11 k
  array n fun k => f0 (k % (n / 2)) + g1 k

/-- `split_radix_dif`, fft.ml:267-279 -/
noncomputable def splitRadixDif (rec : Dft) (sign : ℤ) (n : ℕ) (input : Signal) : Signal :=
  let n2 := n / 2
  let n4 := n / 4
  let x0 := array n2 fun i => input i + input (i + n2)
  let x10 := array n4 fun i => input i - input (i + n2)
  let x11 := array n4 fun i => input (i + n4) - input (i + n2 + n4)
  let x1 (k i : ℕ) : ℂ := cis n (k * i * sign) * (x10 i + cis 4 (k * sign) * x11 i)
  let f0 := rec sign n2 x0
  let f1 : ℕ → Signal := array 4 fun k => rec sign n4 (x1 k)
  array n fun k =>
    if k % 2 = 0 then f0 (k / 2)
    else
      let k' := k % 4
      f1 k' ((k - k') / 4)

/-- `prime_factor`, fft.ml:281-286 -/
noncomputable def primeFactor (rec : Dft) (sign : ℤ) (n n1 n2 : ℕ) (input : Signal) : Signal :=
  let tmp1 : ℕ → Signal := array n2 fun i2 => rec sign n1 fun i1 => input ((i1 * n2 + i2 * n1) % n)
  let tmp2 : ℕ → Signal := array n1 fun i1 => rec sign n2 fun k2 => tmp1 k2 i1
  fun i => tmp2 (i % n1) (i % n2)

/-- `algorithm`, fft.ml:288-305, with `dft_prime`'s test for Rader's algorithm (73-74) -/
noncomputable def algorithm (mp : Magic) (rec : Dft) (sign : ℤ) (n : ℕ) (input : Signal) : Signal :=
  let r := chooseFactor n
  if n ∈ mp.raderList then dftRader mp rec sign n input
  else if r = 1 then
    if n ≥ mp.raderMin then dftRader mp rec sign n input else dftPrime sign n input
  else if gcd r (n / r) = 1 then primeFactor rec sign n r (n / r) input
  else if n % 4 = 0 ∧ n > 4 then
    if mp.newsplit && isPowerOfTwo n then newsplit0 sign n input
    else if mp.difSplitRadix then splitRadixDif rec sign n input
    else splitRadixDit rec sign n input
  else cooleyTukey rec sign n r (n / r) input

/-- `dft`, fft.ml:241-307.  The recursive calls are all to smaller sizes; a call that is not (which would recurse forever) is 0 here. -/
noncomputable def dft (mp : Magic) (sign : ℤ) (n : ℕ) (input : Signal) : Signal :=
  array n (algorithm mp (fun sg m x => if m < n then dft mp sg m x else 0) sign n input)
termination_by n

end FFTW.Genfft
