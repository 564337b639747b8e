import Verif.Proofs.Primes3
import Mathlib.NumberTheory.Bertrand

/-!
# C09, C10, C11, C12: number theory of `kernel/primes.c`

`some v` as the result of a modelled function means: the C function terminates, has no undefined behaviour
(in particular no signed overflow of 64-bit `INT`) and returns `v`.
-/

namespace FFTW.Props
open FFTW.Primes

/-! ## C09 — primality and factor queries are exact -/

/-- `first_divisor n` is the least prime factor of `n`, for every `n ≥ 2` below `3037000499²`. -/
theorem C09_first_divisor (n : ℕ) (h2 : 2 ≤ n) (hb : (n : Int) < 9223372030926249001) :
    ∃ d : ℕ, firstDivisor n = some (d : Int) ∧ d.Prime ∧ d ∣ n ∧ ∀ q : ℕ, q.Prime → q ∣ n → d ≤ q :=
  ⟨n.minFac, firstDivisor_some h2 hb, Nat.minFac_prime (by omega), Nat.minFac_dvd n,
    fun _ hq hd => Nat.minFac_le_of_dvd hq.two_le hd⟩

/-- on 0 and 1 (and negative numbers) `first_divisor` returns its argument -/
theorem C09_first_divisor_trivial (n : Int) (h : n ≤ 1) : firstDivisor n = some n := by
  unfold firstDivisor; rw [if_pos h]; rfl

/-- **Finding**: for a prime at or above `3037000499²` the test `i*i <= n` of the trial-division loop
overflows `INT` (undefined behaviour), so the bound in `C09_first_divisor` cannot be removed. -/
theorem C09_first_divisor_overflows (n : ℕ) (hp : n.Prime) (hb : 9223372030926249001 ≤ (n : Int))
    (hI : (n : Int) ≤ INT_MAX) : firstDivisor n = none := firstDivisor_none hp hb hI

/-- `is_prime` is exact -/
theorem C09_is_prime (n : Int) (hb : n < 9223372030926249001) :
    ∃ b : Bool, isPrime n = some b ∧ (b = true ↔ n.toNat.Prime) :=
  ⟨_, isPrime_some hb, by simp⟩

/-- `next_prime n` is the least prime `≥ n` -/
theorem C09_next_prime (n : Int) (hlo : -2 ^ 62 ≤ n) (hhi : n ≤ 2 ^ 61) :
    ∃ p : ℕ, nextPrime n = some (p : Int) ∧ IsLeast {q : ℕ | q.Prime ∧ n ≤ q} p := by
  classical
  have hex : ∃ q : ℕ, q.Prime ∧ n ≤ q ∧ q ≤ 2 ^ 62 := by
    by_cases h : n ≤ 2
    · exact ⟨2, Nat.prime_two, by exact_mod_cast h, by norm_num⟩
    · obtain ⟨p, hp, h1, h2⟩ := Nat.exists_prime_lt_and_le_two_mul n.toNat (by omega)
      refine ⟨p, hp, by omega, ?_⟩
      norm_num at hhi ⊢
      omega
  let P : ℕ → Prop := fun q => q.Prime ∧ n ≤ q
  have hexP : ∃ q, P q := by obtain ⟨q, h1, h2, _⟩ := hex; exact ⟨q, h1, h2⟩
  have hsp : P (Nat.find hexP) := Nat.find_spec hexP
  have hmin : ∀ q, P q → Nat.find hexP ≤ q := fun q hq => Nat.find_min' hexP hq
  refine ⟨Nat.find hexP, ?_, hsp, fun q hq => hmin q hq⟩
  obtain ⟨q, h1, h2, h3⟩ := hex
  have hle := hmin q ⟨h1, h2⟩
  norm_num at h3
  exact nextPrime_some hsp.1 (by unfold trialBound; omega) _ n hlo hsp.2 (fun q hq hn => hmin q ⟨hq, hn⟩) (le_refl _)

/-- `factors_into n primes` holds iff every prime factor of `n` is in the list -/
theorem C09_factors_into (qs : List ℕ) (n : ℕ) (hq : ∀ q ∈ qs, q.Prime) (h1 : 1 ≤ n) (hI : (n : Int) ≤ INT_MAX) :
    ∃ b : Bool, factorsInto n (qs.map (fun q : ℕ => (q : Int))) = some b ∧
      (b = true ↔ ∀ p : ℕ, p.Prime → p ∣ n → p ∈ qs) :=
  ⟨_, factorsInto_some qs n hq h1 hI, by simp⟩

/-- `factors_into_small_primes n` holds iff `n` is 2-3-5-smooth -/
theorem C09_factors_into_small_primes (n : ℕ) (h1 : 1 ≤ n) (hI : (n : Int) ≤ INT_MAX) :
    ∃ b : Bool, factorsIntoSmallPrimes n = some b ∧ (b = true ↔ ∀ p : ℕ, p.Prime → p ∣ n → p = 2 ∨ p = 3 ∨ p = 5) := by
  obtain ⟨b, h, hb⟩ := C09_factors_into [2, 3, 5] n
    (by intro q hq; simp at hq; rcases hq with rfl | rfl | rfl <;> norm_num) h1 hI
  exact ⟨b, by simpa [factorsIntoSmallPrimes] using h, by simpa using hb⟩

-- hypotheses are met by a composite, a prime, and a size just below the limit
example : ∃ d : ℕ, firstDivisor (91 : ℕ) = some (d : Int) ∧ d = 7 := by
  obtain ⟨d, h, hp, hd, hm⟩ := C09_first_divisor 91 (by norm_num) (by norm_num)
  refine ⟨d, h, ?_⟩
  have h7 := hm 7 (by norm_num) (by norm_num)
  interval_cases d <;> revert hp hd <;> norm_num
example : isPrime 10007 = some true := by
  obtain ⟨b, h, hb⟩ := C09_is_prime 10007 (by norm_num)
  rw [h, hb.2 (by change Nat.Prime 10007; norm_num)]
example : ((9223372030926249000 : ℕ) : Int) < 9223372030926249001 ∧ 2 ≤ 9223372030926249000 := by norm_num
example : ∃ p : ℕ, nextPrime 24 = some (p : Int) ∧ p = 29 := by
  obtain ⟨p, h, hl⟩ := C09_next_prime 24 (by norm_num) (by norm_num)
  refine ⟨p, h, ?_⟩
  have h29 : p ≤ 29 := hl.2 ⟨by norm_num, by norm_num⟩
  obtain ⟨hp, hge⟩ := hl.1
  have : 24 ≤ p := by exact_mod_cast hge
  interval_cases p <;> revert hp <;> norm_num

/-! ## C10 — modular multiplication is exact and never overflows -/

/-- `safe_mulmod` computes the exact modular product for operands reduced modulo any `INT` modulus -/
theorem C10_safe_mulmod (x y p : Int) (hp : p ≤ INT_MAX) (hx : 0 ≤ x) (hxp : x < p) (hy : 0 ≤ y) (hyp : y < p) :
    safeMulmod x y p = some ((x * y) % p) := safeMulmod_some hp hx hxp hy hyp

/-- and so does the `MULMOD` macro with its small-operand fast path -/
theorem C10_MULMOD (x y p : Int) (hp : p ≤ INT_MAX) (hx : 0 ≤ x) (hxp : x < p) (hy : 0 ≤ y) (hyp : y < p) :
    MULMOD x y p = some ((x * y) % p) := MULMOD_some hp hx hxp hy hyp

/-- the fast path of `MULMOD` even fits 32-bit integers -/
theorem C10_MULMOD_fast_path_32 (x y : Int) (hx : 0 ≤ x) (hy : 0 ≤ y) (h : x ≤ 92681 - y) : x * y < 2 ^ 31 := by
  nlinarith [sq_nonneg (x - y)]

/-- `power_mod` is exact -/
theorem C10_power_mod (n p : Int) (m : ℕ) (hp2 : 2 ≤ p) (hp : p ≤ INT_MAX) (hn : 0 ≤ n) (hnp : n < p)
    (hm : (m : Int) ≤ INT_MAX) : powerMod n m p = some (n ^ m % p) :=
  powerMod_some hp hp2 hn hnp m m (le_refl _) hm

/-- **Finding**: modulo 1 the zeroth power is returned unreduced, so `p ≥ 2` is needed. -/
theorem C10_power_mod_one : powerMod 0 0 1 = some 1 := by rw [powerMod]; rfl

example : safeMulmod (2 ^ 62) (2 ^ 62 + 1) INT_MAX = some ((2 ^ 62 * (2 ^ 62 + 1)) % INT_MAX) :=
  C10_safe_mulmod _ _ _ (le_refl _) (by norm_num) (by unfold INT_MAX; norm_num) (by norm_num) (by unfold INT_MAX; norm_num)

/-! ## C11 — the generator search returns a primitive root -/

/-- For every prime `p` the search terminates without overrunning its 16-entry factor array and returns the
least positive integer of multiplicative order `p - 1` modulo `p`. -/
theorem C11_find_generator (p : ℕ) (hp : p.Prime) (hI : (p : Int) ≤ INT_MAX) :
    ∃ g : ℕ, findGenerator p = some (g : Int) ∧ g < p ∧
      IsLeast {g : ℕ | 1 ≤ g ∧ orderOf (g : ZMod p) = p - 1} g := by
  obtain ⟨g, h1, h2, h3, h4, h5⟩ := findGenerator_some hp hI
  refine ⟨g, h1, h3, ⟨h2, h4⟩, ?_⟩
  rintro h ⟨hh1, hh2⟩
  by_contra hlt
  exact h5 h hh1 (by omega) hh2

/-- consequence relied on by Rader's algorithm: the powers of the generator enumerate all nonzero residues -/
theorem C11_generator_enumerates (p : ℕ) (hp : p.Prime) (hI : (p : Int) ≤ INT_MAX) :
    ∃ g : ℕ, findGenerator p = some (g : Int) ∧
      ∀ r : ℕ, 1 ≤ r → r < p → ∃ k, k < p - 1 ∧ g ^ k % p = r := by
  have : Fact p.Prime := ⟨hp⟩
  obtain ⟨g, h1, h2, h3, h4, _⟩ := findGenerator_some hp hI
  refine ⟨g, h1, ?_⟩
  intro r hr hrp
  have hne : ∀ x : ℕ, 1 ≤ x → x < p → (x : ZMod p) ≠ 0 := by
    intro x hx hxp h
    rw [ZMod.natCast_eq_zero_iff] at h
    have := Nat.le_of_dvd (by omega) h
    omega
  let u : (ZMod p)ˣ := Units.mk0 _ (hne g h2 h3)
  let v : (ZMod p)ˣ := Units.mk0 _ (hne r hr hrp)
  have hu : orderOf u = Nat.card (ZMod p)ˣ := by
    rw [Nat.card_eq_fintype_card, ZMod.card_units_eq_totient, Nat.totient_prime hp, ← h4, ← orderOf_units]; rfl
  have hv : v ∈ Submonoid.powers u := by
    rw [mem_powers_iff_mem_zpowers]
    have : Subgroup.zpowers u = ⊤ := Subgroup.eq_top_of_card_eq _ (by rw [Nat.card_zpowers, hu])
    rw [this]; trivial
  obtain ⟨k, hk⟩ := hv
  have hk' : (g : ZMod p) ^ k = (r : ZMod p) := congrArg Units.val hk
  refine ⟨k % (p - 1), Nat.mod_lt _ (by have := hp.two_le; omega), ?_⟩
  have h5 : (g : ZMod p) ^ (k % (p - 1)) = (r : ZMod p) := by rw [← h4, pow_mod_orderOf, hk']
  have h6 : ((g ^ (k % (p - 1)) : ℕ) : ZMod p) = (r : ZMod p) := by push_cast; exact h5
  rw [ZMod.natCast_eq_natCast_iff] at h6
  have h7 : g ^ (k % (p - 1)) % p = r % p := h6
  rw [h7, Nat.mod_eq_of_lt hrp]

/-- the factor list of an even number never needs more than 15 of the 16 array entries and is exact -/
theorem C11_get_prime_factors (n : ℕ) (hn : 1 ≤ n) (he : 2 ∣ n) (hI : (n : Int) ≤ INT_MAX) :
    ∃ l : List ℕ, getPrimeFactors n = some (l.map (fun x : ℕ => (x : Int))) ∧ l.Nodup ∧ ∀ p : ℕ, p ∈ l ↔ p.Prime ∧ p ∣ n := by
  obtain ⟨l, h1, h2, h3⟩ := getPrimeFactors_some hn (by omega) hI
  exact ⟨l, h1, h2.imp (fun h => Nat.ne_of_lt h), h3⟩

example : ∃ g : ℕ, findGenerator (41 : ℕ) = some (g : Int) ∧ g < 41 := by
  obtain ⟨g, h, h', _⟩ := C11_find_generator 41 (by norm_num) (by unfold INT_MAX; norm_num)
  exact ⟨g, h, h'⟩

/-! ## C12 — radix selection -/

/-- `isqrt` is the floor of the square root -/
theorem C12_isqrt (n : ℕ) (hI : (n : Int) < INT_MAX) :
    ∃ s : ℕ, isqrt n = some (s : Int) ∧ s * s ≤ n ∧ n < (s + 1) * (s + 1) :=
  ⟨Nat.sqrt n, isqrt_some hI, Nat.sqrt_le n, Nat.lt_succ_sqrt n⟩

/-- **Finding**: for the largest `INT` the first iteration overflows in `guess + iguess`. -/
theorem C12_isqrt_INT_MAX : isqrt INT_MAX = none := by
  unfold isqrt
  rw [if_neg (by decide), isqrtLoop]
  have : cadd INT_MAX 1 = none := by decide
  rw [this]; rfl

/-- a radix chosen for a size always divides it (0 = no radix), whatever the request -/
theorem C12_choose_radix_divides (r : Int) (n : ℕ) (hn : 2 ≤ n) (hr : -INT_MAX ≤ r)
    (hb : (n : Int) < 9223372030926249001) : ∃ q : Int, chooseRadix r n = some q ∧ (q = 0 ∨ (0 < q ∧ q ∣ n)) := by
  rcases lt_trichotomy r 0 with h | h | h
  · obtain ⟨k, rfl⟩ : ∃ k : ℕ, r = -(k : Int) := ⟨(-r).toNat, by omega⟩
    refine ⟨_, chooseRadix_neg (by omega) (by omega) (by unfold INT_MAX; omega), ?_⟩
    split
    · rename_i hc
      right
      have hkn : 0 < n / k := Nat.div_pos (by omega) (by omega)
      refine ⟨by exact_mod_cast Nat.sqrt_pos.2 hkn, ?_⟩
      have h2 : Nat.sqrt (n / k) ∣ n / k := Dvd.intro _ hc.2.2
      exact_mod_cast h2.trans (Nat.div_dvd_of_dvd hc.2.1)
    · exact Or.inl rfl
  · subst h
    exact ⟨_, chooseRadix_zero hn hb, Or.inr ⟨by exact_mod_cast Nat.minFac_pos n, by exact_mod_cast Nat.minFac_dvd n⟩⟩
  · refine ⟨_, chooseRadix_pos h (by omega) (by unfold INT_MAX; omega), ?_⟩
    split
    · exact Or.inr ⟨h, by assumption⟩
    · exact Or.inl rfl

/-- a positive request is granted iff it divides the size -/
theorem C12_choose_radix_pos (r n : Int) (hr : 0 < r) (hn : 0 ≤ n) (hI : n ≤ INT_MAX) :
    chooseRadix r n = some (if r ∣ n then r else 0) := chooseRadix_pos hr hn hI

/-- request 0 selects the least prime factor -/
theorem C12_choose_radix_zero (n : ℕ) (hn : 2 ≤ n) (hb : (n : Int) < 9223372030926249001) :
    chooseRadix 0 n = some (n.minFac : Int) := chooseRadix_zero hn hb

/-- the square-root rule: with request `-r`, radix `q ≠ 0` is returned iff `n = r q²` and `n > r` -/
theorem C12_choose_radix_sqrt (r n : ℕ) (hr : 1 ≤ r) (hrI : (r : Int) ≤ INT_MAX) (hI : (n : Int) < INT_MAX) :
    ∃ q : ℕ, chooseRadix (-(r : Int)) n = some (q : Int) ∧
      ∀ t : ℕ, t ≠ 0 → (q = t ↔ n = r * t ^ 2 ∧ r < n) := by
  refine ⟨if r < n ∧ r ∣ n ∧ Nat.sqrt (n / r) * Nat.sqrt (n / r) = n / r then Nat.sqrt (n / r) else 0, ?_, ?_⟩
  · rw [chooseRadix_neg hr hrI hI]
    congr 1
    split <;> simp
  · intro t ht
    constructor
    · intro h
      split at h
      · rename_i hc
        subst h
        refine ⟨?_, hc.1⟩
        rw [pow_two, hc.2.2, Nat.mul_div_cancel' hc.2.1]
      · exact absurd h.symm ht
    · rintro ⟨h1, h2⟩
      have h3 : n / r = t * t := by rw [h1, Nat.mul_div_cancel_left _ (by omega), pow_two]
      rw [if_pos ⟨h2, Dvd.intro _ h1.symm, by rw [h3, Nat.sqrt_eq]⟩, h3, Nat.sqrt_eq]

/-- `modulo a n` is the nonnegative residue for every `INT` `a`, including the most negative -/
theorem C12_modulo (a n : Int) (ha : IsINT a) (hn0 : 0 < n) (hn : n ≤ INT_MAX) :
    ∃ r, modulo a n = some r ∧ 0 ≤ r ∧ r < n ∧ n ∣ (a - r) :=
  ⟨_, modulo_some ha hn0 hn, Int.emod_nonneg _ (by omega), Int.emod_lt_of_pos _ hn0, Int.dvd_self_sub_emod⟩

/-- the distributed 1d transform's factorisation: the radix search terminates and returns a nontrivial
factorisation `r * m = n`, or 0; 0 only if no nontrivial divisor exists at or above the square root. -/
theorem C12_mpi_choose_radix (n pes : ℕ) (hn : 1 ≤ n) (hp : 1 ≤ pes) (hI : (n : Int) < INT_MAX) (fwd : Bool) :
    ∃ r m : ℕ, mpiChooseRadix n pes fwd = some ((r : Int), (m : Int)) ∧
      ((r = 0 ∧ m = 0 ∧ (n = 1 ∨ n.Prime ∨ pes = 1)) ∨ (r * m = n ∧ 1 < r ∧ 1 < m)) := by
  have hI' := hI
  unfold INT_MAX at hI'
  have hs := Nat.sqrt_le n
  have hs2 := Nat.lt_succ_sqrt n
  have hsp : 1 ≤ Nat.sqrt n := Nat.sqrt_pos.2 (by omega)
  have key : ∀ r : ℕ, r ∣ n → (r = 1 ∨ r = n → (n = 1 ∨ n.Prime ∨ pes = 1)) →
      ∃ r' m' : ℕ, (if (r : Int) = 1 ∨ (r : Int) = n then (return ((0 : Int), (0 : Int)) : C (Int × Int))
        else do
          let m ← cdiv n r
          return if fwd then ((r : Int), m) else (m, (r : Int))) = some ((r' : Int), (m' : Int)) ∧
      ((r' = 0 ∧ m' = 0 ∧ (n = 1 ∨ n.Prime ∨ pes = 1)) ∨ (r' * m' = n ∧ 1 < r' ∧ 1 < m')) := by
    intro r hrn hbad
    have hrpos : 0 < r := Nat.pos_of_dvd_of_pos hrn (by omega)
    by_cases hc : r = 1 ∨ r = n
    · rw [if_pos (by rcases hc with h | h <;> [left; right] <;> exact_mod_cast h)]
      exact ⟨0, 0, rfl, Or.inl ⟨rfl, rfl, hbad hc⟩⟩
    · rw [if_neg (by intro h; apply hc; rcases h with h | h <;> [left; right] <;> exact_mod_cast h)]
      rw [cdiv_some (by omega) (by unfold INT_MAX; omega) (by omega)]
      simp only [Option.bind_eq_bind, Option.bind_some]
      obtain ⟨m, rfl⟩ := hrn
      have hm : ((r * m : ℕ) : Int) / r = (m : Int) := by
        rw [show ((r * m : ℕ) : Int) / r = (((r * m) / r : ℕ) : Int) by push_cast; rfl, Nat.mul_div_cancel_left _ hrpos]
      rw [hm]
      have hr1 : 1 < r := by omega
      have hm1 : 1 < m := by
        rcases Nat.lt_or_ge 1 m with h | h
        · exact h
        · exfalso
          have : m = 0 ∨ m = 1 := by omega
          rcases this with rfl | rfl
          · omega
          · exact hc (Or.inr (by ring))
      cases fwd
      · exact ⟨m, r, rfl, Or.inr ⟨by ring, hm1, hr1⟩⟩
      · exact ⟨r, m, rfl, Or.inr ⟨rfl, hr1, hm1⟩⟩
  unfold mpiChooseRadix
  rw [cmod_some (by omega) (by unfold INT_MAX; omega) (by omega)]
  simp only [Option.bind_eq_bind, Option.bind_some]
  rw [cdiv_some (by omega) (by unfold INT_MAX; omega) (by omega)]
  simp only [Option.bind_some]
  rw [show (n : Int) / pes = ((n / pes : ℕ) : Int) by push_cast; rfl]
  by_cases hc : pes ∣ n ∧ pes ≤ n / pes
  · rw [if_pos ⟨dvd_iff_emod.2 hc.1, by exact_mod_cast hc.2⟩]
    simp only [pure, Option.bind_some]
    refine key (n / pes) (Nat.div_dvd_of_dvd hc.1) ?_
    have hpn := Nat.div_mul_cancel hc.1
    rintro (h | h)
    · rw [h] at hpn hc; exact Or.inl (by omega)
    · right; right
      rw [h] at hpn
      exact Nat.eq_of_mul_eq_mul_left (show 0 < n by omega) (by omega)
  · rw [if_neg (by rintro ⟨h1, h2⟩; exact hc ⟨dvd_iff_emod.1 h1, by exact_mod_cast h2⟩)]
    rw [isqrt_some hI]
    simp only [Option.bind_some]
    have hsn : Nat.sqrt n ≤ n := Nat.sqrt_le_self n
    obtain ⟨s, h1, h2, h3, h4, h5⟩ := mpiRadixLoop_some hn (by unfold INT_MAX; omega) n (Nat.sqrt n) hsp hsn (by omega)
    rw [h1]
    simp only [Option.bind_some]
    refine key s h2 ?_
    intro hs1
    by_cases hn1 : n = 1
    · exact Or.inl hn1
    right; left
    by_contra hnp
    have hs1' : n.minFac * n.minFac ≤ n := by have := Nat.minFac_sq_le_self (by omega) hnp; nlinarith
    have hmf := Nat.minFac_dvd n
    have hmp : n.minFac.Prime := Nat.minFac_prime hn1
    have hco := Nat.div_mul_cancel hmf
    -- the cofactor of the least prime factor is a divisor in [sqrt n, n)
    have h6 : Nat.sqrt n ≤ n / n.minFac := by
      have : n.minFac ≤ Nat.sqrt n := Nat.le_sqrt.2 hs1'
      rw [Nat.le_div_iff_mul_le hmp.pos]
      calc Nat.sqrt n * n.minFac ≤ Nat.sqrt n * Nat.sqrt n := Nat.mul_le_mul_left _ this
        _ ≤ n := hs
    have h7 : n / n.minFac < n := Nat.div_lt_self (by omega) hmp.one_lt
    have h8 : s ≤ n / n.minFac := by
      by_contra hlt
      exact h5 _ h6 (by omega) (Nat.div_dvd_of_dvd hmf)
    rcases hs1 with h | h
    · subst h
      have : Nat.sqrt n = 1 := by omega
      rw [this] at hs2
      have : n = 2 ∨ n = 3 := by omega
      rcases this with rfl | rfl <;> exact hnp (by norm_num)
    · omega

example : chooseRadix (-3) (75 : ℕ) = some 5 := by
  obtain ⟨q, h, hq⟩ := C12_choose_radix_sqrt 3 75 (by norm_num) (by unfold INT_MAX; norm_num) (by unfold INT_MAX; norm_num)
  rw [(hq 5 (by norm_num)).2 ⟨by norm_num, by norm_num⟩] at h
  exact h
example : IsINT INT_MIN ∧ (0 : Int) < 7 ∧ (7 : Int) ≤ INT_MAX := by unfold IsINT INT_MIN INT_MAX; norm_num
example : (1 ≤ 60 ∧ 1 ≤ 7) ∧ ((60 : ℕ) : Int) < INT_MAX := by unfold INT_MAX; norm_num

end FFTW.Props
