import Verif.Proofs.Primes2
import Mathlib.Algebra.BigOperators.Group.List.Basic
import Mathlib.Algebra.Order.BigOperators.Group.List
import Mathlib.Tactic.IntervalCases
import Mathlib.Tactic.NormNum.Prime
import Mathlib.GroupTheory.OrderOfElement
import Mathlib.RingTheory.IntegralDomain
import Mathlib.FieldTheory.Finite.Basic

namespace FFTW.Primes

/-! ### choose_radix -/

theorem isqrtMaybe_some {n : ℕ} (hnI : (n : Int) < INT_MAX) :
    isqrtMaybe n = some (if Nat.sqrt n * Nat.sqrt n = n then (Nat.sqrt n : Int) else 0) := by
  unfold isqrtMaybe
  rw [isqrt_some hnI]
  simp only [Option.bind_eq_bind, Option.bind_some]
  have h := Nat.sqrt_le n
  have hZ : (Nat.sqrt n : Int) * Nat.sqrt n ≤ n := by exact_mod_cast h
  have h0 : (0 : Int) ≤ (Nat.sqrt n : Int) * Nat.sqrt n := by positivity
  unfold INT_MAX at hnI
  rw [cmul_some (by rw [isINT_iff]; omega)]
  simp only [Option.bind_some]
  change some _ = some _
  congr 1
  have : ((Nat.sqrt n : Int) * Nat.sqrt n = n) ↔ (Nat.sqrt n * Nat.sqrt n = n) := by
    rw [← Nat.cast_mul]; exact Nat.cast_inj
  simp only [this]

theorem chooseRadix_pos {r n : Int} (hr : 0 < r) (hn : 0 ≤ n) (hnI : n ≤ INT_MAX) :
    chooseRadix r n = some (if r ∣ n then r else 0) := by
  unfold chooseRadix
  rw [if_pos hr, cmod_some hn hnI hr]
  simp only [Option.bind_eq_bind, Option.bind_some, Int.dvd_iff_emod_eq_zero]
  rfl

theorem chooseRadix_zero {n : ℕ} (hn2 : 2 ≤ n) (hn : (n : Int) < trialBound) :
    chooseRadix 0 n = some (n.minFac : Int) := by
  unfold chooseRadix
  simp only [gt_iff_lt, lt_self_iff_false, if_false, if_true]
  exact firstDivisor_some hn2 hn

theorem chooseRadix_neg {r n : ℕ} (hr : 1 ≤ r) (hrI : (r : Int) ≤ INT_MAX) (hnI : (n : Int) < INT_MAX) :
    chooseRadix (-(r : Int)) n =
      some (if r < n ∧ r ∣ n ∧ Nat.sqrt (n / r) * Nat.sqrt (n / r) = n / r then (Nat.sqrt (n / r) : Int) else 0) := by
  have hnI' := hnI
  unfold INT_MAX at hnI' hrI
  unfold chooseRadix
  rw [if_neg (by omega), if_neg (by omega), csub_some (by rw [isINT_iff]; omega)]
  simp only [Option.bind_eq_bind, Option.bind_some]
  have e : (0 : Int) - -(r : Int) = r := by ring
  rw [e]
  by_cases h1 : r < n
  · rw [if_pos (by omega), cmod_some (by omega) (by omega) (by omega)]
    simp only [Option.bind_some]
    by_cases h2 : r ∣ n
    · rw [if_pos (dvd_iff_emod.2 h2), cdiv_some (by omega) (by omega) (by omega)]
      simp only [Option.bind_some]
      rw [show (n : Int) / r = ((n / r : ℕ) : Int) by push_cast; rfl, isqrtMaybe_some]
      · simp [h1, h2]
      · have : n / r ≤ n := Nat.div_le_self _ _
        omega
    · rw [if_neg (fun h => h2 (dvd_iff_emod.1 h))]
      simp [h2]
  · rw [if_neg (by omega)]
    simp [h1]

/-! ### factors_into -/

theorem divideOut_some {q : ℕ} (hq : 2 ≤ q) (k : ℕ) : ∀ n : ℕ, 1 ≤ n → n ≤ k → (n : Int) ≤ INT_MAX →
    ∃ m : ℕ, divideOut n q = some (m : Int) ∧ 1 ≤ m ∧ m ≤ n ∧ ¬ q ∣ m ∧ ∃ e, n = q ^ e * m := by
  induction k with
  | zero => intro n h1 h2; omega
  | succ k ih =>
    intro n h1 h2 hI
    rw [divideOut, cmod_some (by omega) hI (by omega)]
    simp only [Option.bind_eq_bind, Option.bind_some]
    by_cases hd : q ∣ n
    · rw [if_pos (dvd_iff_emod.2 hd), cdiv_some (by omega) hI (by omega)]
      simp only [Option.bind_some]
      rw [show (n : Int) / q = ((n / q : ℕ) : Int) by push_cast; rfl]
      have hlt : n / q < n := Nat.div_lt_self (by omega) (by omega)
      have hpos : 1 ≤ n / q := Nat.div_pos (Nat.le_of_dvd (by omega) hd) (by omega)
      obtain ⟨m, hm, hm1, hmn, hqm, e, he⟩ := ih (n / q) hpos (by omega) (by omega)
      refine ⟨m, hm, hm1, by omega, hqm, e + 1, ?_⟩
      rw [pow_succ, mul_assoc, mul_comm q m, ← mul_assoc, ← he, Nat.div_mul_cancel hd]
    · rw [if_neg (fun h => hd (dvd_iff_emod.1 h))]
      exact ⟨n, rfl, h1, le_refl _, hd, 0, by simp⟩

open Classical in
theorem factorsInto_some (qs : List ℕ) : ∀ n : ℕ, (∀ q ∈ qs, q.Prime) → 1 ≤ n → (n : Int) ≤ INT_MAX →
    factorsInto n (qs.map (fun q : ℕ => (q : Int))) = some (decide (∀ p : ℕ, p.Prime → p ∣ n → p ∈ qs)) := by
  induction qs with
  | nil =>
    intro n _ h1 _
    simp only [List.map_nil, factorsInto]
    change some _ = some _
    congr 1
    rw [Bool.eq_iff_iff]
    simp only [beq_iff_eq, decide_eq_true_eq, List.not_mem_nil, imp_false]
    constructor
    · intro h p hp hd
      have : n = 1 := by omega
      subst this
      exact hp.one_lt.ne' (Nat.dvd_one.1 hd)
    · intro h
      by_contra hne
      exact h _ (Nat.minFac_prime (n := n) (by omega)) (Nat.minFac_dvd n)
  | cons q qs ih =>
    intro n hqs h1 hI
    have hq : q.Prime := hqs q (by simp)
    obtain ⟨m, hm, hm1, hmn, hqm, e, he⟩ := divideOut_some hq.two_le n n h1 (le_refl _) hI
    simp only [List.map_cons, factorsInto, hm, Option.bind_eq_bind, Option.bind_some]
    rw [ih m (fun q' h => hqs q' (by simp [h])) hm1 (by omega)]
    congr 1
    rw [Bool.eq_iff_iff]
    simp only [decide_eq_true_eq, List.mem_cons]
    constructor
    · intro h p hp hd
      rw [he] at hd
      rcases hp.dvd_mul.1 hd with hd | hd
      · exact Or.inl ((Nat.prime_dvd_prime_iff_eq hp hq).1 (hp.dvd_of_dvd_pow hd))
      · exact Or.inr (h p hp hd)
    · intro h p hp hd
      rcases h p hp (he ▸ Dvd.dvd.mul_left hd _) with rfl | h
      · exact absurd hd hqm
      · exact h

/-! ### MPI choose_radix -/

theorem mpiRadixLoop_some {n : ℕ} (hn : 1 ≤ n) (hnI : (n : Int) ≤ INT_MAX) (k : ℕ) : ∀ r : ℕ, 1 ≤ r → r ≤ n → n - r ≤ k →
    ∃ s : ℕ, mpiRadixLoop n r = some (s : Int) ∧ s ∣ n ∧ r ≤ s ∧ s ≤ n ∧ ∀ t, r ≤ t → t < s → ¬ t ∣ n := by
  unfold INT_MAX at hnI
  induction k with
  | zero =>
    intro r h1 h2 h3
    have : r = n := by omega
    subst this
    refine ⟨r, ?_, dvd_refl _, le_refl _, le_refl _, by omega⟩
    rw [mpiRadixLoop, cmod_some (by omega) (by unfold INT_MAX; omega) (by omega)]
    simp
  | succ k ih =>
    intro r h1 h2 h3
    rw [mpiRadixLoop, cmod_some (by omega) (by unfold INT_MAX; omega) (by omega)]
    simp only [Option.bind_eq_bind, Option.bind_some]
    by_cases hd : r ∣ n
    · rw [if_pos (dvd_iff_emod.2 hd)]
      exact ⟨r, rfl, hd, le_refl _, h2, by omega⟩
    · rw [if_neg (fun h => hd (dvd_iff_emod.1 h))]
      have hne : r ≠ n := by rintro rfl; exact hd (dvd_refl _)
      rw [cadd_some (by rw [isINT_iff]; omega)]
      simp only [Option.bind_some]
      rw [show (r : Int) + 1 = ((r + 1 : ℕ) : Int) by push_cast; rfl]
      obtain ⟨s, h4, h5, h6, h7, h8⟩ := ih (r + 1) (by omega) (by omega) (by omega)
      refine ⟨s, h4, h5, by omega, h7, ?_⟩
      intro t ht1 ht2
      by_cases h : t = r
      · subst h; exact hd
      · exact h8 t (by omega) ht2

/-! ### get_prime_factors -/

theorem primes_prod_lb : ∀ (bs : List ℕ) (b : ℕ) (l : List ℕ),
    List.IsChain (fun b b' => ∀ q, b < q → q.Prime → b' ≤ q) (b :: bs) →
    (∀ x ∈ l, x.Prime) → l.Pairwise (· < ·) → (∀ x ∈ l, b ≤ x) → bs.length + 1 ≤ l.length →
    (b :: bs).prod ≤ l.prod := by
  intro bs
  induction bs with
  | nil =>
    intro b l _ hp hs hb hl
    match l, hp, hs, hb, hl with
    | a :: l, hp, hs, hb, hl =>
      have h1 : b ≤ a := hb a (by simp)
      have h2 : 1 ≤ l.prod := List.one_le_prod_of_one_le (fun x hx => (hp x (by simp [hx])).one_lt.le)
      simp only [List.prod_cons, List.prod_nil, mul_one]
      nlinarith
  | cons b' bs ih =>
    intro b l hc hp hs hb hl
    match l, hp, hs, hb, hl with
    | a :: l, hp, hs, hb, hl =>
      rw [List.isChain_cons_cons] at hc
      have h1 : b ≤ a := hb a (by simp)
      rw [List.pairwise_cons] at hs
      have h2 := ih b' l hc.2 (fun x hx => hp x (by simp [hx])) hs.2
        (fun x hx => hc.1 x (lt_of_le_of_lt h1 (hs.1 x hx)) (hp x (by simp [hx]))) (by simp at hl ⊢; omega)
      rw [List.prod_cons, List.prod_cons (a := a)]
      exact Nat.mul_le_mul h1 h2

theorem sixteen_primes {l : List ℕ} (hp : ∀ x ∈ l, x.Prime) (hs : l.Pairwise (· < ·)) (hprod : l.prod < 2 ^ 63) :
    l.length < 16 := by
  by_contra hlen
  have h := primes_prod_lb [3, 5, 7, 11, 13, 17, 19, 23, 29, 31, 37, 41, 43, 47, 53] 2 l ?_ hp hs
    (fun x hx => (hp x hx).two_le) (by simp; omega)
  · norm_num at h hprod
    omega
  · simp only [List.isChain_cons_cons, List.isChain_singleton, and_true]
    refine ⟨?_, ?_, ?_, ?_, ?_, ?_, ?_, ?_, ?_, ?_, ?_, ?_, ?_, ?_, ?_⟩ <;>
    · intro q hq hp
      by_contra h
      push Not at h
      interval_cases q <;> revert hp <;> norm_num

theorem stripTwos_some (k : ℕ) : ∀ n : ℕ, 1 ≤ n → n ≤ k → n % 2 = 0 →
    ∃ m : ℕ, stripTwos n = some (m : Int) ∧ m % 2 = 1 ∧ 2 * m ≤ n ∧ (∀ p : ℕ, p.Prime → (p ∣ n ↔ p = 2 ∨ p ∣ m)) := by
  induction k with
  | zero => intro n h1 h2; omega
  | succ k ih =>
    intro n h1 h2 hI
    rw [stripTwos, cshr1_some (by omega)]
    simp only [Option.bind_eq_bind, Option.bind_some]
    rw [show (n : Int) / 2 = ((n / 2 : ℕ) : Int) by push_cast; rfl]
    have hnn : n = 2 * (n / 2) := by omega
    unfold cand1
    split
    · rename_i he
      obtain ⟨m, h3, h4, h5, h6⟩ := ih (n / 2) (by omega) (by omega) (by omega)
      refine ⟨m, h3, h4, by omega, ?_⟩
      intro p hp
      rw [hnn, hp.dvd_mul, h6 p hp, Nat.prime_dvd_prime_iff_eq hp Nat.prime_two]
      tauto
    · rename_i he
      refine ⟨n / 2, rfl, by omega, by omega, ?_⟩
      intro p hp
      conv_lhs => rw [hnn, hp.dvd_mul, Nat.prime_dvd_prime_iff_eq hp Nat.prime_two]

theorem stripFactor_some {i : ℕ} (hi : i.Prime) (k : ℕ) : ∀ n : ℕ, 1 ≤ n → n ≤ k → i ∣ n → (n : Int) ≤ INT_MAX →
    ∃ m : ℕ, stripFactor n i = some (m : Int) ∧ 1 ≤ m ∧ ¬ i ∣ m ∧ i * m ≤ n ∧ m ∣ n ∧ (∀ p : ℕ, p.Prime → (p ∣ n ↔ p = i ∨ p ∣ m)) := by
  induction k with
  | zero => intro n h1 h2; omega
  | succ k ih =>
    intro n h1 h2 hd hI
    rw [stripFactor, cdiv_some (by omega) hI (by have := hi.pos; omega)]
    simp only [Option.bind_eq_bind, Option.bind_some]
    rw [show (n : Int) / i = ((n / i : ℕ) : Int) by push_cast; rfl]
    have hlt : n / i < n := Nat.div_lt_self (by omega) hi.one_lt
    have hpos : 1 ≤ n / i := Nat.div_pos (Nat.le_of_dvd (by omega) hd) hi.pos
    have hnn : n = i * (n / i) := (Nat.mul_div_cancel' hd).symm
    rw [cmod_some (by omega) (by omega) (by have := hi.pos; omega)]
    simp only [Option.bind_some]
    by_cases he : i ∣ n / i
    · rw [if_pos (dvd_iff_emod.2 he)]
      obtain ⟨m, h3, h4, h4', h5, h7, h6⟩ := ih (n / i) hpos (by omega) he (by omega)
      refine ⟨m, h3, h4, h4', by omega, h7.trans (Nat.div_dvd_of_dvd hd), ?_⟩
      intro p hp
      rw [hnn, hp.dvd_mul, h6 p hp, Nat.prime_dvd_prime_iff_eq hp hi]
      tauto
    · rw [if_neg (fun h => he (dvd_iff_emod.1 h))]
      refine ⟨n / i, rfl, hpos, he, by omega, Nat.div_dvd_of_dvd hd, ?_⟩
      intro p hp
      conv_lhs => rw [hnn, hp.dvd_mul, Nat.prime_dvd_prime_iff_eq hp hi]

/-- image of a list of naturals in the `INT` array -/
abbrev up (l : List ℕ) : List Int := l.map (fun x : ℕ => (x : Int))

theorem pushPrimef_some {l : List ℕ} {v : ℕ} (h : l.length < 16) : pushPrimef (up l) v = some (up (l ++ [v])) := by
  unfold pushPrimef
  simp [h]

/-- state invariant of the factoring loop -/
structure GpfInv (n0 i n : ℕ) (l : List ℕ) : Prop where
  npos : 1 ≤ n
  odd : n % 2 = 1
  small : ∀ d, 2 ≤ d → d < i → ¬ d ∣ n
  primes : ∀ x ∈ l, x.Prime
  sorted : l.Pairwise (· < ·)
  lt : ∀ x ∈ l, x < i
  mem : ∀ p : ℕ, p.Prime → (p ∣ n0 ↔ p ∈ l ∨ p ∣ n)
  prod : l.prod * n ≤ n0

theorem GpfInv.len {n0 i n : ℕ} {l : List ℕ} (h : GpfInv n0 i n l) (hn0 : (n0 : Int) ≤ INT_MAX) : l.length < 16 := by
  refine sixteen_primes h.primes h.sorted ?_
  have h1 := h.prod
  have h2 := h.npos
  have : l.prod ≤ l.prod * n := Nat.le_mul_of_pos_right _ h2
  unfold INT_MAX at hn0
  omega

/-- non-definitional form of `Option.bind_some` (keeps the kernel from evaluating checked arithmetic) -/
theorem bsome {α β : Type} (x : α) (f : α → Option β) : (some x).bind f = f x := by simp

theorem gpfLoop_some {n0 : ℕ} (hn0 : (n0 : Int) ≤ INT_MAX) (k : ℕ) : ∀ (i n : ℕ) (l : List ℕ), n0 + 2 - i ≤ k → GpfInv n0 i n l →
    3 ≤ i → i % 2 = 1 → (i : Int) ≤ 2147483651 → (n : Int) ≤ 4611686018427387904 → i ≤ n0 + 2 →
    ∃ (n' i' : ℕ) (l' : List ℕ), gpfLoop i n (up l) = some ((n' : Int), up l') ∧ GpfInv n0 i' n' l' ∧ n' < i' * i' ∧ 3 ≤ i' := by
  have hn0' := hn0
  unfold INT_MAX at hn0'
  induction k with
  | zero =>
    intro i n l hk hinv hi hio hib hn hin
    have : i = n0 + 2 := by omega
    subst this
    have hn : n ≤ n0 := by
      have := hinv.prod
      have h1 : 1 ≤ l.prod := List.one_le_prod_of_one_le (fun x hx => (hinv.primes x hx).one_lt.le)
      nlinarith
    refine ⟨n, n0 + 2, l, ?_, hinv, by nlinarith, by omega⟩
    have hlt : n < (n0 + 2) * (n0 + 2) := by nlinarith
    have hltZ : (n : Int) < ((n0 + 2 : ℕ) : Int) * ((n0 + 2 : ℕ) : Int) := by exact_mod_cast hlt
    have hleZ : ((n0 + 2 : ℕ) : Int) * ((n0 + 2 : ℕ) : Int) ≤ 4611686031312289801 := by
      have h1 : ((n0 + 2 : ℕ) : Int) ≤ 2147483651 := by exact_mod_cast hib
      nlinarith
    rw [gpfLoop, cmul_some (by rw [isINT_iff]; omega)]
    simp only [Option.bind_eq_bind, Option.bind_some]
    rw [if_neg (by omega)]
    rfl
  | succ k ih =>
    intro i n l hk hinv hi hio hib hn hin
    have hiiZ : (i : Int) * i ≤ 4611686031312289801 := by
      nlinarith
    have hiiZ0 : (0 : Int) ≤ (i : Int) * i := by positivity
    have hnn0 : n ≤ n0 := by
      have := hinv.prod
      have h1 : 1 ≤ l.prod := List.one_le_prod_of_one_le (fun x hx => (hinv.primes x hx).one_lt.le)
      nlinarith
    have hnpos := hinv.npos
    rw [gpfLoop, cmul_some (by rw [isINT_iff]; omega)]
    simp only [Option.bind_eq_bind, Option.bind_some]
    split
    · rename_i hle
      have hle' : i * i ≤ n := by exact_mod_cast hle
      have hin' : i ≤ n := le_trans (Nat.le_mul_self i) hle'
      have hib2 : (i : Int) ≤ 2147483648 := by
        by_contra h
        nlinarith
      rw [cmod_some (by omega) (by unfold INT_MAX; omega) (by omega)]
      simp only [bsome]
      by_cases hd : i ∣ n
      · rw [if_pos (dvd_iff_emod.2 hd), pushPrimef_some (hinv.len hn0)]
        simp only [bsome]
        have hip : i.Prime := by
          rw [Nat.prime_def_minFac]
          refine ⟨by omega, ?_⟩
          refine minFac_of_first (by omega) (dvd_refl _) (fun d h1 h2 h3 => hinv.small d h1 h2 (h3.trans hd))
        obtain ⟨m, h3, h4, h4', h5, h6, h7⟩ := stripFactor_some hip n n (by omega) (le_refl _) hd (by unfold INT_MAX; omega)
        rw [h3]
        simp only [bsome]
        rw [cadd_some (by rw [isINT_iff]; omega)]
        simp only [bsome]
        rw [show (i : Int) + 2 = ((i + 2 : ℕ) : Int) by push_cast; rfl]
        have hmn : m ≤ n := Nat.le_of_dvd (by omega) h6
        have hmodd : m % 2 = 1 := by
          have := hinv.odd
          by_contra h
          have : 2 ∣ n := Dvd.dvd.trans (by omega) h6
          omega
        refine ih (i + 2) m (l ++ [i]) (by omega) ?_ (by omega) (by omega) (by omega) (by omega) (by omega)
        refine ⟨h4, hmodd, ?_, ?_, ?_, ?_, ?_, ?_⟩
        · exact noDiv_step hmodd hio (fun d h1 h2 h3 => hinv.small d h1 h2 (h3.trans h6)) h4'
        · intro x hx
          rcases List.mem_append.1 hx with hx | hx
          · exact hinv.primes x hx
          · simp at hx; subst hx; exact hip
        · rw [List.pairwise_append]
          exact ⟨hinv.sorted, by simp, fun a ha b hb => by simp at hb; subst hb; exact hinv.lt a ha⟩
        · intro x hx
          rcases List.mem_append.1 hx with hx | hx
          · have := hinv.lt x hx; omega
          · simp at hx; omega
        · intro p hp
          rw [hinv.mem p hp, h7 p hp]
          simp only [List.mem_append, List.mem_singleton]
          tauto
        · have := hinv.prod
          simp only [List.prod_append, List.prod_singleton]
          calc l.prod * i * m = l.prod * (i * m) := by ring
            _ ≤ l.prod * n := Nat.mul_le_mul_left _ h5
            _ ≤ n0 := this
      · rw [if_neg (fun h => hd (dvd_iff_emod.1 h)), cadd_some (by rw [isINT_iff]; omega)]
        simp only [bsome]
        rw [show (i : Int) + 2 = ((i + 2 : ℕ) : Int) by push_cast; rfl]
        refine ih (i + 2) n l (by omega) ?_ (by omega) (by omega) (by omega) (by omega) (by omega)
        exact { hinv with small := noDiv_step hinv.odd hio hinv.small hd, lt := fun x hx => by have := hinv.lt x hx; omega }
    · rename_i hle
      exact ⟨n, i, l, rfl, hinv, by have := not_le.1 hle; exact_mod_cast this, hi⟩

theorem getPrimeFactors_some {n : ℕ} (hn : 1 ≤ n) (heven : n % 2 = 0) (hI : (n : Int) ≤ INT_MAX) :
    ∃ l : List ℕ, getPrimeFactors n = some (up l) ∧ l.Pairwise (· < ·) ∧ ∀ p : ℕ, p ∈ l ↔ p.Prime ∧ p ∣ n := by
  have hI' := hI
  unfold INT_MAX at hI'
  unfold getPrimeFactors
  have hp0 : pushPrimef [] 2 = some (up [2]) := by
    have := pushPrimef_some (l := []) (v := 2) (by simp)
    simpa using this
  rw [hp0]
  simp only [Option.bind_eq_bind, Option.bind_some]
  obtain ⟨m, h1, h2, h3, h4⟩ := stripTwos_some n n hn (le_refl _) heven
  rw [h1]
  simp only [Option.bind_some]
  split
  · rename_i hm
    have hm1 : m = 1 := by omega
    subst hm1
    refine ⟨[2], rfl, by simp, ?_⟩
    intro p
    simp only [List.mem_singleton]
    constructor
    · rintro rfl
      exact ⟨Nat.prime_two, by omega⟩
    · rintro ⟨hp, hd⟩
      rcases (h4 p hp).1 hd with h | h
      · exact h
      · exact absurd (Nat.dvd_one.1 h) hp.one_lt.ne'
  · rename_i hm
    have hinv : GpfInv n 3 m [2] := by
      refine ⟨by omega, h2, ?_, ?_, by simp, by simp, ?_, by simpa using h3⟩
      · intro d hd1 hd2 hd3
        have : d = 2 := by omega
        subst this; omega
      · intro x hx; simp at hx; subst hx; exact Nat.prime_two
      · intro p hp; rw [h4 p hp]; simp
    obtain ⟨n', i', l', hr, hinv', hlt, hi3⟩ := gpfLoop_some hI (n + 2) 3 m [2] (by omega) hinv (by omega) rfl (by omega) (by omega) (by omega)
    have hr' : gpfLoop 3 (↑m) (up [2]) = some (↑n', up l') := hr
    rw [hr']
    simp only [Option.bind_some]
    by_cases hn1 : n' = 1
    · subst hn1
      refine ⟨l', rfl, hinv'.sorted, ?_⟩
      intro p
      constructor
      · intro hp; exact ⟨hinv'.primes p hp, ((hinv'.mem p (hinv'.primes p hp)).2 (Or.inl hp))⟩
      · rintro ⟨hp, hd⟩
        rcases (hinv'.mem p hp).1 hd with h | h
        · exact h
        · exact absurd (Nat.dvd_one.1 h) hp.one_lt.ne'
    · rw [if_neg (by omega), pushPrimef_some (hinv'.len hI)]
      have hnp := hinv'.npos
      have hn'p : n'.Prime := by
        rw [Nat.prime_def_minFac]
        exact ⟨by omega, minFac_of_none (by omega) hlt hinv'.small⟩
      refine ⟨l' ++ [n'], rfl, ?_, ?_⟩
      · rw [List.pairwise_append]
        refine ⟨hinv'.sorted, by simp, fun a ha b hb => ?_⟩
        simp at hb; subst hb
        have h5 := hinv'.lt a ha
        by_contra hle
        exact hinv'.small b hn'p.two_le (by omega) (dvd_refl _)
      · intro p
        simp only [List.mem_append, List.mem_singleton]
        constructor
        · rintro (hp | rfl)
          · exact ⟨hinv'.primes p hp, ((hinv'.mem p (hinv'.primes p hp)).2 (Or.inl hp))⟩
          · exact ⟨hn'p, (hinv'.mem p hn'p).2 (Or.inr (dvd_refl _))⟩
        · rintro ⟨hp, hd⟩
          rcases (hinv'.mem p hp).1 hd with h | h
          · exact Or.inl h
          · exact Or.inr ((Nat.prime_dvd_prime_iff_eq hp hn'p).1 h)

/-! ### find_generator -/

theorem powmod_eq_one_iff {p n k : ℕ} (hp2 : 2 ≤ p) : ((n : Int) ^ k % (p : Int) = 1) ↔ ((n : ZMod p) ^ k = 1) := by
  have h1 : (1 : Int) = 1 % (p : Int) := (Int.emod_eq_of_lt (by omega) (by omega)).symm
  conv_lhs => rw [h1]
  change Int.ModEq p _ _ ↔ _
  rw [← ZMod.intCast_eq_intCast_iff]
  push_cast
  rfl

theorem order_iff {p : ℕ} [Fact p.Prime] (hp3 : 3 ≤ p) {n : ℕ} (hn : 1 ≤ n) (hnp : n < p) :
    orderOf (n : ZMod p) = p - 1 ↔ ∀ q : ℕ, q.Prime → q ∣ p - 1 → (n : ZMod p) ^ ((p - 1) / q) ≠ 1 := by
  have hne : (n : ZMod p) ≠ 0 := by
    intro h
    rw [ZMod.natCast_eq_zero_iff] at h
    have := Nat.le_of_dvd (by omega) h
    omega
  constructor
  · intro h q hq hd heq
    have h1 := orderOf_dvd_of_pow_eq_one heq
    rw [h] at h1
    have hpos : 0 < (p - 1) / q := Nat.div_pos (Nat.le_of_dvd (by omega) hd) hq.pos
    have := Nat.le_of_dvd hpos h1
    have := Nat.div_lt_self (n := p - 1) (by omega) hq.one_lt
    omega
  · intro h
    refine orderOf_eq_of_pow_and_pow_div_prime (by omega) ?_ h
    exact ZMod.pow_card_sub_one_eq_one hne

theorem findGenLoop_some {p g : ℕ} [Fact p.Prime] (hp3 : 3 ≤ p) (hpI : (p : Int) ≤ INT_MAX) {all : List ℕ}
    (hall : ∀ q : ℕ, q ∈ all ↔ q.Prime ∧ q ∣ p - 1)
    (hg : orderOf (g : ZMod p) = p - 1) (hg2 : 2 ≤ g) (hgp : g < p)
    (hmin : ∀ h : ℕ, 2 ≤ h → h < g → orderOf (h : ZMod p) ≠ p - 1) (k : ℕ) :
    ∀ (j : ℕ) (n : ℕ) (rest : List ℕ), g - n ≤ k → rest.length ≤ j → 2 ≤ n → n ≤ g →
      (∃ pre, all = pre ++ rest ∧ ∀ q ∈ pre, (n : ZMod p) ^ ((p - 1) / q) ≠ 1) →
      findGenLoop ((p - 1 : ℕ) : Int) p (up all) (up rest) n = some (g : Int) := by
  have hpI' := hpI
  unfold INT_MAX at hpI'
  induction k using Nat.strong_induction_on with
  | _ k ihk =>
  intro j
  induction j with
  | zero =>
    intro n rest hk hj hn hng hpre
    have : rest = [] := by simpa using hj
    subst this
    obtain ⟨pre, hall', hpre⟩ := hpre
    have hord : orderOf (n : ZMod p) = p - 1 :=
      (order_iff hp3 (by omega) (by omega)).2 (fun q hq hd => hpre q (by
        have := (hall q).2 ⟨hq, hd⟩
        rw [hall'] at this; simpa using this))
    have : n = g := by
      by_contra hne
      exact hmin n hn (by omega) hord
    subst this
    change findGenLoop _ _ _ [] _ = _
    rw [findGenLoop]; rfl
  | succ j ihj =>
    intro n rest hk hj hn hng hpre
    match rest, hj, hpre with
    | [], hj, hpre => exact ihj n [] hk (by simp) hn hng hpre
    | f :: rest, hj, hpre =>
      obtain ⟨pre, hall', hpre⟩ := hpre
      have hf : f.Prime ∧ f ∣ p - 1 := (hall f).1 (by rw [hall']; simp)
      have hfpos := hf.1.pos
      change findGenLoop _ _ _ ((f : Int) :: up rest) _ = _
      rw [findGenLoop, cdiv_some (by omega) (by unfold INT_MAX; omega) (by omega)]
      simp only [Option.bind_eq_bind, Option.bind_some]
      rw [show ((p - 1 : ℕ) : Int) / f = (((p - 1) / f : ℕ) : Int) by push_cast; rfl]
      have hle : (p - 1) / f ≤ p - 1 := Nat.div_le_self _ _
      rw [powerMod_some hpI (by omega) (by omega) (by omega) ((p - 1) / f) ((p - 1) / f) (le_refl _) (by unfold INT_MAX; omega)]
      simp only [Option.bind_some]
      by_cases hone : (n : ZMod p) ^ ((p - 1) / f) = 1
      · rw [if_pos ((powmod_eq_one_iff (by omega)).2 hone), cadd_some (by rw [isINT_iff]; omega)]
        simp only [Option.bind_some]
        rw [show (n : Int) + 1 = ((n + 1 : ℕ) : Int) by push_cast; rfl]
        have hne : n ≠ g := by
          rintro rfl
          exact (order_iff hp3 (by omega) hgp).1 hg f hf.1 hf.2 hone
        exact ihk (g - (n + 1)) (by omega) all.length (n + 1) all (le_refl _) (le_refl _) (by omega) (by omega) ⟨[], by simp, by simp⟩
      · rw [if_neg (fun h => hone ((powmod_eq_one_iff (by omega)).1 h))]
        refine ihj n rest hk (by simp at hj; omega) hn hng ⟨pre ++ [f], by simp [hall'], ?_⟩
        intro q hq
        rcases List.mem_append.1 hq with hq | hq
        · exact hpre q hq
        · simp at hq; subst hq; exact hone

theorem exists_primroot {p : ℕ} [Fact p.Prime] : ∃ g : ℕ, 1 ≤ g ∧ g < p ∧ orderOf (g : ZMod p) = p - 1 := by
  obtain ⟨u, hu⟩ := IsCyclic.exists_generator (α := (ZMod p)ˣ)
  have hord : orderOf u = p - 1 := by
    rw [orderOf_eq_card_of_forall_mem_zpowers hu, Nat.card_eq_fintype_card, ZMod.card_units_eq_totient, Nat.totient_prime (Fact.out)]
  have hcast : (((u : ZMod p).val : ℕ) : ZMod p) = (u : ZMod p) := ZMod.natCast_zmod_val _
  refine ⟨(u : ZMod p).val, ?_, ZMod.val_lt _, ?_⟩
  · rcases Nat.eq_zero_or_pos (u : ZMod p).val with h | h
    · exact absurd ((ZMod.val_eq_zero _).1 h) u.ne_zero
    · exact h
  · rw [hcast, orderOf_units, hord]

theorem findGenerator_some {p : ℕ} (hp : p.Prime) (hpI : (p : Int) ≤ INT_MAX) :
    ∃ g : ℕ, findGenerator p = some (g : Int) ∧ 1 ≤ g ∧ g < p ∧ orderOf (g : ZMod p) = p - 1 ∧
      ∀ h : ℕ, 1 ≤ h → h < g → orderOf (h : ZMod p) ≠ p - 1 := by
  have : Fact p.Prime := ⟨hp⟩
  have h2 := hp.two_le
  have hpI' := hpI
  unfold INT_MAX at hpI'
  unfold findGenerator
  rw [csub_some (by rw [isINT_iff]; omega)]
  simp only [Option.bind_eq_bind, Option.bind_some]
  by_cases hp2 : p = 2
  · subst hp2
    refine ⟨1, by simp, le_refl _, by norm_num, by simp, by omega⟩
  · rw [if_neg (by omega)]
    have hodd : p % 2 = 1 := by
      rcases hp.eq_two_or_odd with h | h
      · omega
      · exact h
    rw [show (p : Int) - 1 = ((p - 1 : ℕ) : Int) by omega]
    obtain ⟨l, h3, h4, h5⟩ := getPrimeFactors_some (n := p - 1) (by omega) (by omega) (by unfold INT_MAX; omega)
    rw [h3]
    simp only [Option.bind_some]
    have hex := exists_primroot (p := p)
    classical
    set g := Nat.find hex with hgdef
    obtain ⟨hg1, hgp, hg⟩ := Nat.find_spec hex
    have hmin : ∀ h : ℕ, 1 ≤ h → h < g → orderOf (h : ZMod p) ≠ p - 1 := by
      intro h h1 h2' h3'
      exact Nat.find_min hex h2' ⟨h1, by omega, h3'⟩
    have hg2 : 2 ≤ g := by
      by_contra hcon
      have : g = 1 := by omega
      rw [← hgdef, this] at hg
      simp at hg
      omega
    refine ⟨g, ?_, hg1, hgp, hg, hmin⟩
    exact findGenLoop_some (by omega) hpI h5 hg hg2 hgp (fun h h1 h2 => hmin h (by omega) h2) (g - 2) l.length 2 l
      (le_refl _) (le_refl _) (le_refl _) hg2 ⟨[], by simp, by simp⟩

end FFTW.Primes
