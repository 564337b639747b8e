import Verif.Proofs.GenfftMath
import Verif.Proofs.DftMath
import Mathlib.Data.Nat.ModEq
import Mathlib.Data.Nat.Prime.Basic

/-! # fft.ml: prime factor, split radix, small primes, choice of factors -/

namespace FFTW.Genfft
open Complex Finset

theorem dftSum_mod (sign : ℤ) (n : ℕ) (x : Signal) (k : ℕ) : dftSum sign n x (k % n) = dftSum sign n x k := by
  unfold dftSum
  refine sum_congr rfl fun j _ => ?_
  congr 1
  apply cis_congr
  have : (k : ℤ) = (k % n : ℕ) + n * (k / n : ℕ) := by exact_mod_cast (Nat.mod_add_div k n).symm
  refine ⟨-(sign * j * (k / n : ℕ)), ?_⟩
  generalize ((k % n : ℕ) : ℤ) = k1 at *
  generalize ((k / n : ℕ) : ℤ) = k2 at *
  rw [this]
  ring

theorem crt_sum {M : Type*} [AddCommMonoid M] {n1 n2 : ℕ} (hc : Nat.Coprime n1 n2) (h1 : 0 < n1) (h2 : 0 < n2) (f : ℕ → M) :
    ∑ j ∈ range (n1 * n2), f j = ∑ b ∈ range n2, ∑ a ∈ range n1, f ((a * n2 + b * n1) % (n1 * n2)) := by
  rw [← sum_product']
  have hinj : Set.InjOn (fun p : ℕ × ℕ => (p.2 * n2 + p.1 * n1) % (n1 * n2)) (range n2 ×ˢ range n1 : Finset (ℕ × ℕ)) := by
    rintro ⟨b, a⟩ h ⟨b', a'⟩ h' e
    simp only [coe_product, Set.mem_prod, mem_coe, mem_range] at h h'
    have e : (a * n2 + b * n1) ≡ (a' * n2 + b' * n1) [MOD n1 * n2] := e
    have e1 := e.of_mul_right n2
    have e2 := e.of_mul_left n1
    have f1 : a * n2 ≡ a' * n2 [MOD n1] := by
      have z : ∀ c, c * n1 ≡ 0 [MOD n1] := fun c => (Nat.modEq_zero_iff_dvd).2 (Dvd.intro_left c rfl)
      calc a * n2 ≡ a * n2 + b * n1 [MOD n1] := by simpa using (Nat.ModEq.refl (a * n2)).add (z b).symm
        _ ≡ a' * n2 + b' * n1 [MOD n1] := e1
        _ ≡ a' * n2 [MOD n1] := by simpa using (Nat.ModEq.refl (a' * n2)).add (z b')
    have f2 : b * n1 ≡ b' * n1 [MOD n2] := by
      have z : ∀ c, c * n2 ≡ 0 [MOD n2] := fun c => (Nat.modEq_zero_iff_dvd).2 (Dvd.intro_left c rfl)
      calc b * n1 ≡ a * n2 + b * n1 [MOD n2] := by simpa using (z a).symm.add (Nat.ModEq.refl (b * n1))
        _ ≡ a' * n2 + b' * n1 [MOD n2] := e2
        _ ≡ b' * n1 [MOD n2] := by simpa using (z a').add (Nat.ModEq.refl (b' * n1))
    have g1 := Nat.ModEq.cancel_right_of_coprime hc f1
    have g2 := Nat.ModEq.cancel_right_of_coprime (Nat.Coprime.symm hc) f2
    have g1 : a = a' := Nat.ModEq.eq_of_lt_of_lt g1 h.2 h'.2
    have g2 : b = b' := Nat.ModEq.eq_of_lt_of_lt g2 h.1 h'.1
    rw [g1, g2]
  have himg : (range n2 ×ˢ range n1).image (fun p : ℕ × ℕ => (p.2 * n2 + p.1 * n1) % (n1 * n2)) = range (n1 * n2) := by
    apply eq_of_subset_of_card_le
    · intro j hj
      obtain ⟨p, _, rfl⟩ := mem_image.1 hj
      exact mem_range.2 (Nat.mod_lt _ (Nat.mul_pos h1 h2))
    · rw [card_image_of_injOn hinj, card_product, card_range, card_range, card_range, mul_comm]
  rw [← himg, sum_image hinj]

theorem primeFactor_ok (rec : Dft) (sign : ℤ) (hs : sign = 1 ∨ sign = -1) (n1 n2 : ℕ) (hc : Nat.Coprime n1 n2) (h1 : IsDft rec n1) (h2 : IsDft rec n2)
    (x : Signal) (k : ℕ) (hk : k < n1 * n2) : primeFactor rec sign (n1 * n2) n1 n2 x k = dftSum sign (n1 * n2) x k := by
  have hn1 : 0 < n1 := Nat.pos_of_ne_zero (by rintro rfl; simp at hk)
  have hn2 : 0 < n2 := Nat.pos_of_ne_zero (by rintro rfl; simp at hk)
  have hk1 : k % n1 < n1 := Nat.mod_lt _ hn1
  have hk2 : k % n2 < n2 := Nat.mod_lt _ hn2
  unfold primeFactor
  simp only [array, if_pos hk1]
  rw [h2 sign hs _ _ hk2, dftSum_mod, dftSum, dftSum, crt_sum hc hn1 hn2]
  refine sum_congr rfl fun i2 hi2 => ?_
  rw [mem_range] at hi2
  simp only [if_pos hi2]
  rw [h1 sign hs _ _ hk1, dftSum_mod, dftSum, mul_sum]
  refine sum_congr rfl fun a ha => ?_
  rw [← mul_assoc]
  congr 1
  rw [← cis_scale (r := n1) (by omega) n2, mul_comm n1 n2, ← cis_scale (r := n2) (by omega) n1, ← cis_add]
  apply cis_congr
  have e : (((a * n2 + i2 * n1) % (n2 * n1) : ℕ) : ℤ) = a * n2 + i2 * n1 - (n2 * n1 : ℕ) * ((a * n2 + i2 * n1) / (n2 * n1) : ℕ) := by
    have := Nat.mod_add_div (a * n2 + i2 * n1) (n2 * n1)
    generalize (a * n2 + i2 * n1) / (n2 * n1) = z at *
    generalize hq : (a * n2 + i2 * n1) % (n2 * n1) = w at *
    have h' : ((w + n2 * n1 * z : ℕ) : ℤ) = ((a * n2 + i2 * n1 : ℕ) : ℤ) := by rw [this]
    push_cast at h' ⊢
    linarith
  rw [e]
  refine ⟨sign * k * ((a * n2 + i2 * n1) / (n2 * n1) : ℕ), ?_⟩
  generalize (((a * n2 + i2 * n1) / (n2 * n1) : ℕ) : ℤ) = z
  push_cast
  ring

/-! ### split radix -/

theorem split_sum {M : Type*} [AddCommMonoid M] (m : ℕ) (f : ℕ → M) :
    ∑ j ∈ range (4 * m), f j = ∑ a ∈ range (2 * m), f (a * 2) + (∑ a ∈ range m, f (a * 4 + 1) + ∑ a ∈ range m, f ((4 * m + a * 4 - 1) % (4 * m))) := by
  rw [mul_comm 4 m, sum_mul_range m 4, mul_comm 2 m, sum_mul_range m 2]
  have h3 : ∑ a ∈ range m, f ((m * 4 + a * 4 - 1) % (m * 4)) = ∑ a ∈ range m, f (a * 4 + 3) := by
    cases m with
    | zero => simp
    | succ m =>
      rw [sum_range_succ', sum_range_succ (fun a => f (a * 4 + 3))]
      congr 1
      · refine sum_congr rfl fun a ha => ?_
        rw [mem_range] at ha
        congr 1
        rw [show (m + 1) * 4 + (a + 1) * 4 - 1 = a * 4 + 3 + (m + 1) * 4 by omega, Nat.add_mod_right, Nat.mod_eq_of_lt (by omega)]
      · congr 1
        rw [Nat.mod_eq_of_lt (by omega)]; omega
  rw [h3]
  simp only [sum_range_succ, sum_range_zero, zero_add, add_zero]
  have e1 : ∀ a, a * 2 * 2 = a * 4 := fun a => by ring
  have e2 : ∀ a, (a * 2 + 1) * 2 = a * 4 + 2 := fun a => by ring
  simp only [e1, e2]
  abel

/-- the three parts of the conjugate-pair split -/
theorem split_dft (sign : ℤ) (m : ℕ) (hm : 0 < m) (x : Signal) (k : ℕ) :
    dftSum sign (4 * m) x k = dftSum sign (2 * m) (fun i => x (i * 2)) k + (cis (4 * m) (sign * k) * dftSum sign m (fun i => x (i * 4 + 1)) k
      + cis (4 * m) (-sign * k) * dftSum sign m (fun i => x ((4 * m + i * 4 - 1) % (4 * m))) k) := by
  unfold dftSum
  rw [split_sum, mul_sum, mul_sum]
  congr 1
  · refine sum_congr rfl fun a _ => ?_
    congr 1
    rw [show 4 * m = 2 * (2 * m) by ring, show sign * ((a * 2 : ℕ) : ℤ) * k = (2 : ℕ) * (sign * a * k) by push_cast; ring, cis_scale (by norm_num)]
  congr 1
  · refine sum_congr rfl fun a _ => ?_
    rw [← mul_assoc]
    congr 1
    rw [← cis_scale (r := 4) (by norm_num) m, ← cis_add]
    congr 1; push_cast; ring
  · refine sum_congr rfl fun a _ => ?_
    rw [← mul_assoc]
    congr 1
    rw [← cis_scale (r := 4) (by norm_num) m, ← cis_add]
    apply cis_congr
    have e := Nat.mod_add_div (4 * m + a * 4 - 1) (4 * m)
    generalize (4 * m + a * 4 - 1) / (4 * m) = z at e
    generalize hq : (4 * m + a * 4 - 1) % (4 * m) = w at e
    have h' : ((w + 4 * m * z : ℕ) : ℤ) = 4 * m + a * 4 - 1 := by omega
    push_cast at h'
    refine ⟨sign * k * (1 - z), ?_⟩
    push_cast
    linear_combination sign * k * h'

theorem splitRadixDit_ok (rec : Dft) (sign : ℤ) (hs : sign = 1 ∨ sign = -1) (m : ℕ) (h1 : IsDft rec m) (h2 : IsDft rec (2 * m))
    (x : Signal) (k : ℕ) (hk : k < 4 * m) : splitRadixDit rec sign (4 * m) x k = dftSum sign (4 * m) x k := by
  have hm : 0 < m := by omega
  unfold splitRadixDit
  rw [show 4 * m / 4 = m by omega, show 4 * m / 2 = 2 * m by omega]
  simp only [array, if_pos hk]
  rw [h1 sign hs _ _ (Nat.mod_lt _ hm), h1 sign hs _ _ (Nat.mod_lt _ hm), h2 sign hs _ _ (Nat.mod_lt _ (by omega)), dftSum_mod, dftSum_mod, dftSum_mod,
    split_dft sign m hm]

theorem cis4 (a : ℤ) : cis 4 (2 * a) = cis 2 a := by
  have := cis_scale (r := 2) (by norm_num) 2 a
  simpa using this

theorem cis2_odd {a : ℤ} (h : a % 2 = 1) : cis 2 a = -1 := by
  have : cis 2 a = cis 2 (1 : ℤ) := cis_congr (by push_cast; omega)
  rw [this]
  have := cis_two 0
  simpa using this

theorem splitRadixDif_ok (rec : Dft) (sign : ℤ) (hs : sign = 1 ∨ sign = -1) (m : ℕ) (h1 : IsDft rec m) (h2 : IsDft rec (2 * m))
    (x : Signal) (k : ℕ) (hk : k < 4 * m) : splitRadixDif rec sign (4 * m) x k = dftSum sign (4 * m) x k := by
  have hm : 0 < m := by omega
  unfold splitRadixDif
  rw [show 4 * m / 4 = m by omega, show 4 * m / 2 = 2 * m by omega]
  simp only [array, if_pos hk]
  by_cases he : k % 2 = 0
  · rw [if_pos he, h2 sign hs _ _ (by omega), dftSum, dftSum, show 4 * m = 2 * (2 * m) by ring, sum_mul_range 2 (2 * m)]
    refine sum_congr rfl fun i hi => ?_
    rw [mem_range] at hi
    simp only [array, if_pos hi]
    simp only [sum_range_succ, sum_range_zero, zero_add, zero_mul, one_mul]
    have e0 : cis (2 * (2 * m)) (sign * i * k) = cis (2 * m) (sign * i * (k / 2 : ℕ)) := by
      have hk2 : (k : ℤ) = 2 * (k / 2 : ℕ) := by omega
      rw [hk2, ← cis_scale (r := 2) (by norm_num) (2 * m)]
      congr 1; push_cast; ring
    have e1 : cis (2 * (2 * m)) (sign * ((2 * m + i : ℕ) : ℤ) * k) = cis (2 * (2 * m)) (sign * i * k) := by
      apply cis_congr
      have hk2 : (k : ℤ) = 2 * (k / 2 : ℕ) := by omega
      refine ⟨sign * (k / 2 : ℕ), ?_⟩
      generalize ((k / 2 : ℕ) : ℤ) = z at hk2
      rw [hk2]; push_cast; ring
    rw [e1, e0, add_comm (2 * m) i]; ring
  · rw [if_neg he]
    have hk4 : k % 4 < 4 := Nat.mod_lt _ (by norm_num)
    simp only [if_pos hk4]
    obtain ⟨q, hq⟩ : ∃ q, (k - k % 4) / 4 = q := ⟨_, rfl⟩
    obtain ⟨k', hk'⟩ : ∃ k', k % 4 = k' := ⟨_, rfl⟩
    have hkq : k = 4 * q + k' := by omega
    rw [hq, hk', h1 sign hs _ _ (by omega), dftSum, dftSum, sum_mul_range 4 m]
    refine sum_congr rfl fun i hi => ?_
    rw [mem_range] at hi
    simp only [if_pos hi, sum_range_succ, sum_range_zero, zero_add, zero_mul, one_mul]
    have e : ∀ b : ℕ, cis (4 * m) (sign * ((b * m + i : ℕ) : ℤ) * k) = cis m (sign * i * q) * cis (4 * m) (k' * i * sign) * cis 4 (b * (k' * sign)) := by
      intro b
      rw [← cis_scale (r := 4) (by norm_num) m, ← cis_scale (r := m) (by omega) 4, mul_comm m 4, ← cis_add, ← cis_add]
      apply cis_congr
      refine ⟨sign * b * q, ?_⟩
      rw [hkq]; push_cast; ring
    have e2 : cis 4 ((2 : ℕ) * (k' * sign)) = -1 := by
      push_cast
      rw [cis4, cis2_odd]
      rcases hs with rfl | rfl <;> omega
    have e3 : cis 4 ((3 : ℕ) * (k' * sign)) = - cis 4 (k' * sign) := by
      rw [show ((3 : ℕ) : ℤ) * (k' * sign) = (2 : ℕ) * (k' * sign) + k' * sign by push_cast; ring, cis_add, e2]; ring
    have i0 := e 0; have i1 := e 1; have i2 := e 2; have i3 := e 3
    simp only [zero_mul, one_mul, zero_add, Nat.cast_zero, Nat.cast_one, cis_zero, mul_one] at i0 i1
    rw [i0, i1, i2, i3, e2, e3, show m + i = i + m by ring, show 2 * m + i = i + 2 * m by ring, show 3 * m + i = i + 2 * m + m by ring]
    ring

/-! ### small primes -/

theorem dftPrime_ok (sign : ℤ) (n : ℕ) (hn : n = 2 ∨ n % 2 = 1) (x : Signal) (k : ℕ) (hk : k < n) : dftPrime sign n x k = dftSum sign n x k := by
  unfold dftPrime
  simp only
  split
  · simp only [array, if_pos hk, sigma_eq, id, Nat.Ico_zero_eq_range, dftSum]
    refine sum_congr rfl fun j _ => ?_
    rw [mul_right_comm]
  · have hodd : n % 2 = 1 := by rcases hn with h | h <;> [contradiction; exact h]
    simp only [array, if_pos hk]
    split
    · rename_i h0
      subst h0
      obtain ⟨h, rfl⟩ : ∃ h, n = 2 * h + 1 := ⟨n / 2, by omega⟩
      rw [dftSum, sigma_eq, show (2 * h + 1 + 1) / 2 = h + 1 by omega, sum_Ico_eq_sum_range, add_tsub_cancel_right]
      simp only [Nat.cast_zero, mul_zero, cis_zero, one_mul]
      rw [Spec.sum_pair]
      congr 1
      refine sum_congr rfl fun i _ => ?_
      rw [add_comm 1 i, show 2 * h + 1 - (i + 1) = 2 * h - i by omega]
    · rename_i h0
      have hmin : min k (n - k) < n := by omega
      simp only [if_pos hmin, sigma_eq, Nat.Ico_zero_eq_range, dftSum]
      split
      · rename_i hlt
        rw [min_eq_left (by omega), ← sum_add_distrib]
        refine sum_congr rfl fun j _ => ?_
        rw [← add_mul]
        congr 1
        rw [mul_right_comm]
        apply Complex.ext <;> simp [real, imag]
      · rw [min_eq_right (by omega), ← sum_sub_distrib]
        refine sum_congr rfl fun j _ => ?_
        rw [← sub_mul]
        congr 1
        have : cis n (sign * j * k) = conj (cis n (sign * (n - k : ℕ) * j)) := by
          rw [conj_cis]
          apply cis_congr
          refine ⟨sign * j, ?_⟩
          rw [Nat.cast_sub hk.le]; ring
        rw [this]
        apply Complex.ext <;> simp [real, imag, conj]

/-! ### choice of factors -/

theorem gcd_eq (n m : ℕ) : gcd n m = Nat.gcd n m := by
  fun_induction gcd n m with
  | case1 m => simp
  | case2 n m h0 h ih => rw [ih, Nat.gcd_comm]
  | case3 n m h0 h h1 => exact (Nat.gcd_eq_left (Nat.dvd_of_mod_eq_zero h1)).symm
  | case4 n m h0 h h1 ih => rw [ih, Nat.gcd_comm n m, ← Nat.gcd_rec, Nat.gcd_comm]

theorem chooseLoop_ok (n : ℕ) (ok : ℕ → Bool) (i f : ℕ) : chooseLoop n ok i f = f ∨ (ok (chooseLoop n ok i f) = true ∧ i ≤ chooseLoop n ok i f ∧ chooseLoop n ok i f * chooseLoop n ok i f ≤ n) := by
  fun_induction chooseLoop n ok i f with
  | case1 => left; rfl
  | case2 i f h h1 ih =>
    rcases ih with ih | ⟨a, b, c⟩
    · right; rw [ih]; exact ⟨h1, le_rfl, by omega⟩
    · right; exact ⟨a, by omega, c⟩
  | case3 i f h h1 ih =>
    rcases ih with ih | ⟨a, b, c⟩
    · left; exact ih
    · right; exact ⟨a, by omega, c⟩

theorem chooseLoop_max (n : ℕ) (ok : ℕ → Bool) (i f : ℕ) (j : ℕ) (hij : i ≤ j) (hj : j * j ≤ n) (hok : ok j = true) : j ≤ chooseLoop n ok i f := by
  fun_induction chooseLoop n ok i f with
  | case1 i f h => exact absurd h (by have := Nat.mul_le_mul hij hij; omega)
  | case2 i f h h1 ih =>
    by_cases e : i = j
    · subst e
      rcases chooseLoop_ok n ok (i + 1) i with h | h <;> omega
    · exact ih (by omega)
  | case3 i f h h1 ih =>
    have : i ≠ j := by rintro rfl; exact h1 hok
    exact ih (by omega)

theorem chooseFactor_ok (n : ℕ) (hn : 0 < n) : chooseFactor n ∣ n ∧ chooseFactor n * chooseFactor n ≤ n ∧ (chooseFactor n = 1 → n = 1 ∨ n.Prime) ∧ 0 < chooseFactor n := by
  have a1 := chooseLoop_ok n (fun i => n % i = 0 && gcd i (n / i) = 1) 1 1
  have a2 := chooseLoop_ok n (fun i => n % i = 0) 1 1
  have a3 := chooseLoop_max n (fun i => n % i = 0) 1 1
  unfold chooseFactor
  simp only
  generalize chooseLoop n (fun i => n % i = 0 && gcd i (n / i) = 1) 1 1 = r1 at *
  generalize chooseLoop n (fun i => n % i = 0) 1 1 = r2 at *
  split
  · rename_i h
    rcases a1 with rfl | ⟨h1, h2, h3⟩
    · omega
    · simp only [Bool.and_eq_true, decide_eq_true_eq] at h1
      exact ⟨Nat.dvd_of_mod_eq_zero h1.1, h3, by omega, by omega⟩
  · simp only [decide_eq_true_eq] at a2 a3
    refine ⟨?_, ?_, ?_, ?_⟩
    · rcases a2 with rfl | ⟨h1, h2, h3⟩
      · exact one_dvd _
      · exact Nat.dvd_of_mod_eq_zero h1
    · rcases a2 with rfl | ⟨h1, h2, h3⟩
      · omega
      · exact h3
    · rintro rfl
      by_cases h1 : n = 1
      · exact Or.inl h1
      · right
        rw [Nat.prime_def_le_sqrt]
        refine ⟨by omega, fun j h2 hj hd => ?_⟩
        have := a3 j (by omega) (Nat.le_sqrt.1 hj) (Nat.mod_eq_zero_of_dvd hd)
        omega
    · rcases a2 with rfl | ⟨h1, h2, h3⟩ <;> omega

end FFTW.Genfft
