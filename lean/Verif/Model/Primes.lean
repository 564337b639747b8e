import Verif.Model.CInt
/-!
# `kernel/primes.c` — number theory used by the planner and by Rader's algorithm

All arithmetic is the checked arithmetic of `Verif.Model.CInt`.  `A(...)` assertions are compiled out in
production builds, so they are not part of the model (they appear as hypotheses of the theorems).
-/

namespace FFTW.Primes

/-- `ADD_MOD` macro, kernel/primes.c:39 -/
def addMod (x y p : Int) : C Int := do
  let d ← csub p y
  if x ≥ d then
    let e ← csub y p
    cadd x e
  else cadd x y

/-- the `while (y)` loop of `safe_mulmod`, kernel/primes.c:51-54 -/
def safeMulmodLoop (r x y p : Int) : C Int := do
  if y = 0 then return r
  else
    let t ← cmul x (cand1 y)
    let r' ← addMod r t p
    let y' ← cshr1 y
    let x' ← addMod x x p
    safeMulmodLoop r' x' y' p
partial_fixpoint

/-- `safe_mulmod`, kernel/primes.c:41-57 -/
def safeMulmod (x y p : Int) : C Int :=
  if y > x then safeMulmod y x p
  else safeMulmodLoop 0 x y p
partial_fixpoint

/-- `MULMOD` macro, kernel/ifftw.h:924-925 -/
def MULMOD (x y p : Int) : C Int := do
  let d ← csub 92681 y
  if x ≤ d then
    let q ← cmul x y
    cmod q p
  else safeMulmod x y p

/-- `power_mod`, kernel/primes.c:64-75 -/
def powerMod (n m p : Int) : C Int := do
  if m = 0 then return 1
  else
    let e ← cmod m 2
    if e = 0 then
      let h ← cdiv m 2
      let x ← powerMod n h p
      MULMOD x x p
    else
      let m1 ← csub m 1
      let y ← powerMod n m1 p
      MULMOD n y p
partial_fixpoint

/-- array store `primef[size++] = v`; `primef` has 16 entries (kernel/primes.c:108), a store beyond is
undefined behaviour.  The array is modelled by the list of its first `size` entries. -/
def pushPrimef (primef : List Int) (v : Int) : C (List Int) :=
  if primef.length < 16 then some (primef ++ [v]) else none

/-- `do { n >>= 1; } while ((n & 1) == 0);` kernel/primes.c:85-87 -/
def stripTwos (n : Int) : C Int := do
  let n' ← cshr1 n
  if cand1 n' = 0 then stripTwos n' else return n'
partial_fixpoint

/-- `do { n /= i; } while (!(n % i));` kernel/primes.c:95-97 -/
def stripFactor (n i : Int) : C Int := do
  let n' ← cdiv n i
  let e ← cmod n' i
  if e = 0 then stripFactor n' i else return n'
partial_fixpoint

/-- the `for (i = 3; i*i <= n; i += 2)` loop, kernel/primes.c:92-98; returns the final `n` and `primef` -/
def gpfLoop (i n : Int) (primef : List Int) : C (Int × List Int) := do
  let s ← cmul i i
  if s ≤ n then
    let e ← cmod n i
    if e = 0 then
      let primef' ← pushPrimef primef i
      let n' ← stripFactor n i
      let i' ← cadd i 2
      gpfLoop i' n' primef'
    else
      let i' ← cadd i 2
      gpfLoop i' n primef
  else return (n, primef)
partial_fixpoint

/-- `get_prime_factors`, kernel/primes.c:78-103 -/
def getPrimeFactors (n : Int) : C (List Int) := do
  let primef ← pushPrimef [] 2
  let n ← stripTwos n
  if n = 1 then return primef
  else
    let (n, primef) ← gpfLoop 3 n primef
    if n = 1 then return primef
    else pushPrimef primef n

/-- the `for` loop of `find_generator`, kernel/primes.c:116-120.  The loop counter `i` is represented by
the list of the factors not yet visited; `i = -1; n++` restarts with the full list `all`. -/
def findGenLoop (pm1 p : Int) (all : List Int) : List Int → Int → C Int
  | [], n => return n
  | f :: rest, n => do
    let e ← cdiv pm1 f
    let x ← powerMod n e p
    if x = 1 then
      let n' ← cadd n 1
      findGenLoop pm1 p all all n'
    else findGenLoop pm1 p all rest n
partial_fixpoint

/-- `find_generator`, kernel/primes.c:105-122 -/
def findGenerator (p : Int) : C Int := do
  let pm1 ← csub p 1
  if p = 2 then return 1
  else
    let primef ← getPrimeFactors pm1
    findGenLoop pm1 p primef primef 2

/-- the `for (i = 3; i*i <= n; i += 2)` loop of `first_divisor`, kernel/primes.c:133-136 -/
def firstDivisorLoop (i n : Int) : C Int := do
  let s ← cmul i i
  if s ≤ n then
    let e ← cmod n i
    if e = 0 then return i
    else
      let i' ← cadd i 2
      firstDivisorLoop i' n
  else return n
partial_fixpoint

/-- `first_divisor`, kernel/primes.c:126-137 -/
def firstDivisor (n : Int) : C Int := do
  if n ≤ 1 then return n
  else
    let e ← cmod n 2
    if e = 0 then return 2
    else firstDivisorLoop 3 n

/-- `is_prime`, kernel/primes.c:139-142 -/
def isPrime (n : Int) : C Bool := do
  if n > 1 then
    let d ← firstDivisor n
    return d == n
  else return false

/-- `next_prime`, kernel/primes.c:144-148 -/
def nextPrime (n : Int) : C Int := do
  let b ← isPrime n
  if b then return n
  else
    let n' ← cadd n 1
    nextPrime n'
partial_fixpoint

/-- `while ((n % *primes) == 0) n /= *primes;` kernel/primes.c:153-154 -/
def divideOut (n q : Int) : C Int := do
  let e ← cmod n q
  if e = 0 then
    let n' ← cdiv n q
    divideOut n' q
  else return n
partial_fixpoint

/-- `factors_into`, kernel/primes.c:150-156.  The zero-terminated array is a list without its terminator. -/
def factorsInto (n : Int) : List Int → C Bool
  | [] => return n == 1
  | q :: qs => do
    let n' ← divideOut n q
    factorsInto n' qs

/-- `factors_into_small_primes`, kernel/primes.c:208-212 -/
def factorsIntoSmallPrimes (n : Int) : C Bool := factorsInto n [2, 3, 5]

/-- the `do ... while (guess > iguess)` loop of `isqrt`, kernel/primes.c:168-173 -/
def isqrtLoop (n guess iguess : Int) : C Int := do
  let s ← cadd guess iguess
  let guess' ← cdiv s 2
  let iguess' ← cdiv n guess'
  if guess' > iguess' then isqrtLoop n guess' iguess' else return guess'
partial_fixpoint

/-- `isqrt`, kernel/primes.c:159-174 -/
def isqrt (n : Int) : C Int :=
  if n = 0 then some 0 else isqrtLoop n n 1

/-- `isqrt_maybe`, kernel/primes.c:176-180 -/
def isqrtMaybe (n : Int) : C Int := do
  let guess ← isqrt n
  let s ← cmul guess guess
  return if s = n then guess else 0

/-- `choose_radix`, kernel/primes.c:183-195 (`divides(a,b)` is `b % a == 0`, line 182) -/
def chooseRadix (r n : Int) : C Int := do
  if r > 0 then
    let e ← cmod n r
    return if e = 0 then r else 0
  else if r = 0 then firstDivisor n
  else
    let r' ← csub 0 r
    if n > r' then
      let e ← cmod n r'
      if e = 0 then
        let q ← cdiv n r'
        isqrtMaybe q
      else return 0
    else return 0

/-- `modulo`, kernel/primes.c:198-205 -/
def modulo (a n : Int) : C Int := do
  if a ≥ 0 then cmod a n
  else
    let a1 ← cadd a 1
    let b ← csub 0 a1
    let e ← cmod b n
    let n1 ← csub n 1
    csub n1 e

/-- the radix search loop `for (r = isqrt(n); n % r != 0; ++r);` of the MPI `choose_radix`,
mpi/choose-radix.c:65-67 -/
def mpiRadixLoop (n r : Int) : C Int := do
  let e ← cmod n r
  if e = 0 then return r
  else
    let r' ← cadd r 1
    mpiRadixLoop n r'
partial_fixpoint

/-- MPI `choose_radix`, mpi/choose-radix.c:48-83, without the block-size outputs (`default_block` is modelled
in `Verif.Model.MpiBlock`).  `fwd` is `sign == FFT_SIGN`. Returns `(r, m)`, `r = 0` meaning infeasible. -/
def mpiChooseRadix (n nPes : Int) (fwd : Bool) : C (Int × Int) := do
  let e ← cmod n nPes
  let q ← cdiv n nPes
  let r ← if e = 0 ∧ q ≥ nPes then pure q
          else do
            let s ← isqrt n
            mpiRadixLoop n s
  if r = 1 ∨ r = n then return (0, 0)
  else
    let m ← cdiv n r
    return if fwd then (r, m) else (m, r)

/-- `POW2P`, kernel/ifftw.h: `((n) > 0) && (((n) & ((n) - 1)) == 0)`; for positive `n`, via `Nat.land` -/
def POW2P (n : Int) : Bool := decide (0 < n) && (Nat.land n.toNat (n.toNat - 1) == 0)

/-- `ct_uglyp`, kernel/ct.c:28-31 (unchecked arithmetic) -/
def ctUglyp (minN v n r : Int) : Bool :=
  decide (n ≤ minN) || (POW2P n && decide (v * (n / r) ≤ 4))

end FFTW.Primes
