import Verif.Proofs.Genfft1
import Mathlib.FieldTheory.Finite.Basic
import Mathlib.RingTheory.IntegralDomain

/-! # fft.ml: Rader's algorithm -/

namespace FFTW.Genfft
open Complex Finset

theorem powMod_eq (x n p : ℕ) (hp : 1 < p) : powMod x n p = x ^ n % p := by
  fun_induction powMod x n p with
  | case1 => simp [Nat.mod_eq_of_lt hp]
  | case2 x n h h2 ih =>
    rw [ih, ← Nat.pow_mod, ← pow_two, ← pow_mul, show 2 * (n / 2) = n by omega]
  | case3 x n h h2 ih =>
    rw [ih, Nat.mul_mod_mod, ← pow_succ', show n - 1 + 1 = n by omega]

section
variable {p : ℕ} [hp : Fact p.Prime]

theorem pow_mod_one {x k : ℕ} : x ^ k % p = 1 ↔ (x : ZMod p) ^ k = 1 := by
  have h1 : 1 < p := hp.out.one_lt
  have := ZMod.natCast_eq_natCast_iff' (x ^ k) 1 p
  rw [Nat.mod_eq_of_lt h1] at this
  push_cast at this
  exact this.symm

theorem period_ok {x : ℕ} {d : ℕ} (hd : d = orderOf (x : ZMod p)) : ∀ e k, 0 < k → k + e = d → period p x (x ^ k % p) = some (e + 1) := by
  intro e
  induction e with
  | zero =>
    intro k hk he
    rw [period.eq_def, if_pos]
    rw [pow_mod_one]
    obtain rfl : k = d := by omega
    rw [hd]; exact pow_orderOf_eq_one _
  | succ e ih =>
    intro k hk he
    rw [period.eq_def, if_neg]
    · rw [show x ^ k % p * x % p = x ^ (k + 1) % p by rw [Nat.mod_mul_mod, ← pow_succ], ih (k + 1) (by omega) (by omega)]
      show some (1 + (e + 1)) = _
      rw [add_comm]
    · rw [pow_mod_one]
      intro h
      have := orderOf_dvd_of_pow_eq_one h
      have := Nat.le_of_dvd hk this
      omega

theorem period_self {x : ℕ} (h0 : 0 < x) (hx : x < p) : period p x x = some (orderOf (x : ZMod p)) := by
  have hne : (x : ZMod p) ≠ 0 := by
    intro h; rw [ZMod.natCast_eq_zero_iff] at h; exact absurd (Nat.le_of_dvd h0 h) (by omega)
  have hpos : 0 < orderOf (x : ZMod p) := by
    rw [orderOf_pos_iff]
    exact isOfFinOrder_iff_pow_eq_one.2 ⟨p - 1, by have := hp.out.two_le; omega, ZMod.pow_card_sub_one_eq_one hne⟩
  have := period_ok (p := p) (x := x) rfl (orderOf (x : ZMod p) - 1) 1 one_pos (by omega)
  rw [pow_one, Nat.mod_eq_of_lt hx] at this
  rw [this]; congr 1; omega

theorem exists_gen : ∃ g : ℕ, 0 < g ∧ g < p ∧ orderOf (g : ZMod p) = p - 1 := by
  obtain ⟨u, hu⟩ := IsCyclic.exists_generator (α := (ZMod p)ˣ)
  have ho : orderOf u = p - 1 := by
    rw [orderOf_eq_card_of_forall_mem_zpowers hu, Nat.card_eq_fintype_card, ZMod.card_units]
  refine ⟨(u : ZMod p).val, ?_, ZMod.val_lt _, ?_⟩
  · exact Nat.pos_of_ne_zero fun h => u.ne_zero ((ZMod.val_eq_zero _).1 h)
  · rw [ZMod.natCast_zmod_val, orderOf_units, ho]

theorem findgen_ok (g0 : ℕ) (h0 : 0 < g0) (h1 : g0 < p) (ho : orderOf (g0 : ZMod p) = p - 1) :
    ∀ e x, 0 < x → x + e = g0 → ∃ g, findgen p x = some g ∧ 0 < g ∧ g < p ∧ orderOf (g : ZMod p) = p - 1 := by
  intro e
  induction e with
  | zero =>
    intro x hx he
    obtain rfl : x = g0 := by omega
    rw [findgen.eq_def, if_neg (by omega), period_self h0 h1, Option.bind_eq_bind, Option.bind_some, if_pos ho]
    exact ⟨x, rfl, h0, h1, ho⟩
  | succ e ih =>
    intro x hx he
    rw [findgen.eq_def, if_neg (by omega), period_self hx (by omega), Option.bind_eq_bind, Option.bind_some]
    split
    · rename_i h; exact ⟨x, rfl, hx, by omega, h⟩
    · rw [Nat.mod_eq_of_lt (by omega)]
      exact ih (x + 1) (by omega) (by omega)

theorem findGenerator_ok : ∃ g, findGenerator p = some g ∧ 0 < g ∧ g < p ∧ orderOf (g : ZMod p) = p - 1 := by
  obtain ⟨g0, a, b, c⟩ := exists_gen (p := p)
  exact findgen_ok g0 a b c (g0 - 1) 1 one_pos (by omega)

/-- sums over the nonzero residues, in the order of the powers of a generator -/
theorem sum_gen {M : Type*} [AddCommMonoid M] {g : ℕ} (h0 : 0 < g) (h1 : g < p) (ho : orderOf (g : ZMod p) = p - 1) (f : ℕ → M) :
    ∑ j ∈ Ico 1 p, f j = ∑ i ∈ range (p - 1), f (g ^ i % p) := by
  have hne : (g : ZMod p) ≠ 0 := by
    intro h; rw [ZMod.natCast_eq_zero_iff] at h; exact absurd (Nat.le_of_dvd h0 h) (by omega)
  have hinj : Set.InjOn (fun i : ℕ => g ^ i % p) (range (p - 1) : Finset ℕ) := by
    intro i hi j hj e
    simp only [coe_range, Set.mem_Iio] at hi hj
    have e : (g : ZMod p) ^ i = (g : ZMod p) ^ j := by
      have : ((g ^ i : ℕ) : ZMod p) = ((g ^ j : ℕ) : ZMod p) := (ZMod.natCast_eq_natCast_iff' _ _ _).2 e
      exact_mod_cast this
    exact pow_injOn_Iio_orderOf (by rw [ho]; exact hi) (by rw [ho]; exact hj) e
  have himg : (range (p - 1)).image (fun i : ℕ => g ^ i % p) = Ico 1 p := by
    apply eq_of_subset_of_card_le
    · intro j hj
      obtain ⟨i, _, rfl⟩ := mem_image.1 hj
      rw [mem_Ico]
      refine ⟨Nat.pos_of_ne_zero fun h => ?_, Nat.mod_lt _ hp.out.pos⟩
      have : ((g ^ i : ℕ) : ZMod p) = 0 := (ZMod.natCast_eq_zero_iff _ _).2 (Nat.dvd_of_mod_eq_zero h)
      push_cast at this
      exact pow_ne_zero i hne this
    · rw [card_image_of_injOn hinj, card_range, Nat.card_Ico]
  rw [← himg, sum_image hinj]

end

theorem suchthat_ok (pred : ℕ → Bool) (i0 : ℕ) (h : pred i0 = true) : ∀ e a, a + e = i0 → ∃ i, suchthat a pred = some i ∧ pred i = true ∧ i ≤ i0 := by
  intro e
  induction e with
  | zero =>
    intro a ha
    obtain rfl : a = i0 := by omega
    rw [suchthat.eq_def, if_pos h]
    exact ⟨a, rfl, h, le_rfl⟩
  | succ e ih =>
    intro a ha
    rw [suchthat.eq_def]
    split
    · rename_i h'; exact ⟨a, rfl, h', by omega⟩
    · exact ih (a + 1) (by omega)

/-! ### convolutions -/

theorem dftSum_congr {sign : ℤ} {n : ℕ} {x y : Signal} (h : ∀ j < n, x j = y j) (k : ℕ) : dftSum sign n x k = dftSum sign n y k :=
  sum_congr rfl fun j hj => by rw [h j (mem_range.1 hj)]

theorem dftSum_add (sign : ℤ) (n : ℕ) (x y : Signal) (k : ℕ) : dftSum sign n (fun i => x i + y i) k = dftSum sign n x k + dftSum sign n y k := by
  unfold dftSum; rw [← sum_add_distrib]; exact sum_congr rfl fun j _ => mul_add _ _ _

theorem mod_sub {n k j : ℕ} (hk : k < n) (hj : j < n) (l : ℕ) (hl : l < n) : (n : ℤ) ∣ (j : ℤ) + l - k ↔ l = (k + n - j) % n := by
  constructor
  · rintro ⟨c, hc⟩
    have h1 : (l : ℤ) = k - j + n * c := by linarith
    have : ((k + n - j : ℕ) : ℤ) = k + n - j := by omega
    have h2 : ((l : ℕ) : ℤ) % n = ((k + n - j : ℕ) : ℤ) % n := by
      rw [this, h1]
      exact Int.emod_eq_emod_iff_emod_sub_eq_zero.2 (Int.emod_eq_zero_of_dvd ⟨c - 1, by ring⟩)
    have h3 : l % n = (k + n - j) % n := by exact_mod_cast h2
    rwa [Nat.mod_eq_of_lt hl] at h3
  · rintro rfl
    have e := Nat.mod_add_div (k + n - j) n
    generalize (k + n - j) / n = z at e
    generalize (k + n - j) % n = w at e
    have e' : ((w + n * z : ℕ) : ℤ) = k + n - j := by omega
    push_cast at e'
    exact ⟨1 - z, by linear_combination e'⟩

theorem conv_dft {n : ℕ} (hn : n ≠ 0) (a b : Signal) {k : ℕ} (hk : k < n) :
    dftSum (-1) n (fun i => dftSum 1 n a i * (inverseInt n * dftSum 1 n b i)) k = ∑ j ∈ range n, a j * b ((k + n - j) % n) := by
  have hn' : (n : ℂ) ≠ 0 := by exact_mod_cast hn
  show ∑ i ∈ range n, cis n (-1 * (i : ℕ) * k) * _ = _
  have h1' : ∀ i : ℕ, cis n (-1 * i * k) * (dftSum 1 n a i * (inverseInt n * dftSum 1 n b i)) =
      ∑ j ∈ range n, ∑ l ∈ range n, a j * b l * (inverseInt n * cis n (i * ((j : ℤ) + l - k))) := by
    intro i
    unfold dftSum
    rw [sum_mul, mul_sum]
    refine sum_congr rfl fun j _ => ?_
    rw [mul_sum, mul_sum, mul_sum]
    refine sum_congr rfl fun l _ => ?_
    have : cis n (i * ((j : ℤ) + l - k)) = cis n (-1 * i * k) * (cis n (1 * j * i) * cis n (1 * l * i)) := by
      rw [← cis_add, ← cis_add]; congr 1; ring
    rw [this]; ring
  rw [sum_congr rfl fun i _ => h1' i, sum_comm]
  refine sum_congr rfl fun j hj => ?_
  rw [mem_range] at hj
  rw [sum_comm]
  have h2 : ∀ l ∈ range n, ∑ i ∈ range n, a j * b l * (inverseInt n * cis n (i * ((j : ℤ) + l - k))) = if l = (k + n - j) % n then a j * b l else 0 := by
    intro l hl
    rw [mem_range] at hl
    rw [← mul_sum, ← mul_sum, cis_sum hn]
    simp only [mod_sub hk hj l hl, inverseInt]
    split
    · field_simp
    · simp
  rw [sum_congr rfl h2, sum_ite_eq', if_pos (mem_range.2 (Nat.mod_lt _ (by omega)))]

theorem dc_dft (n : ℕ) (hn : n ≠ 0) (c : ℂ) (k : ℕ) : dftSum (-1) n (fun i => if i = 0 then c else 0) k = c := by
  unfold dftSum
  simp only [mul_ite, mul_zero]
  rw [sum_ite_eq', if_pos (mem_range.2 (by omega))]
  simp

theorem dftSum_zero (n : ℕ) (a : Signal) (sign : ℤ) : dftSum sign n a 0 = ∑ j ∈ range n, a j := by
  unfold dftSum; exact sum_congr rfl fun j _ => by simp

/-- a correct convolution routine -/
def ConvOk (f : ℕ → Signal → Signal → ℂ → ℂ × Signal) (n : ℕ) : Prop := ∀ a b c,
  (f n a b c).1 = ∑ j ∈ range n, a j ∧ ∀ k < n, (f n a b c).2 k = c + ∑ j ∈ range n, a j * b ((k + n - j) % n)

theorem convFft_ok (rec : Dft) (n : ℕ) (hn : n ≠ 0) (h : IsDft rec n) : ConvOk (convFft rec) n := by
  intro a b c
  unfold convFft
  dsimp only
  constructor
  · rw [h 1 (Or.inl rfl) _ _ (by omega), dftSum_zero]
  · intro k hk
    rw [h (-1) (Or.inr rfl) _ _ hk]
    have e : ∀ i < n, array n (fun i => makeProduct n (rec 1 n a) (rec 1 n b) i + if i = 0 then c else 0) i =
        dftSum 1 n a i * (inverseInt n * dftSum 1 n b i) + if i = 0 then c else 0 := by
      intro i hi
      simp only [array, makeProduct, if_pos hi]
      rw [h 1 (Or.inl rfl) _ _ hi, h 1 (Or.inl rfl) _ _ hi]
    rw [dftSum_congr e, dftSum_add, conv_dft hn a b hk, dc_dft n hn, add_comm]

theorem convAlt_ok (rec : Dft) (n : ℕ) (hn : n ≠ 0) (h : IsDft rec n) : ConvOk (convAlt rec) n := by
  intro a b c
  have hs : ∀ (x : Signal) (i : ℕ), i < n → dftSum 1 n x i = dftSum 1 n (array n fun i => inverseInt 2 * (x i + x ((n - i) % n))) i
      + dftSum 1 n (array n fun i => inverseInt 2 * (x i - x ((n - i) % n))) i := by
    intro x i hi
    rw [← dftSum_add]
    refine dftSum_congr (fun j hj => ?_) i
    simp only [array, if_pos hj, inverseInt]
    push_cast; ring
  unfold convAlt
  dsimp only
  constructor
  · rw [h 1 (Or.inl rfl) _ _ (by omega), h 1 (Or.inl rfl) _ _ (by omega), ← hs a 0 (by omega), dftSum_zero]
  · intro k hk
    rw [array, if_pos hk, h (-1) (Or.inr rfl) _ _ hk, h (-1) (Or.inr rfl) _ _ hk, ← dftSum_add]
    refine (dftSum_congr (y := fun i => dftSum 1 n a i * (inverseInt n * dftSum 1 n b i) + if i = 0 then c else 0) (fun i hi => ?_) k).trans ?_
    · rw [hs a i hi, hs b i hi]
      simp only [array, makeProduct, if_pos hi]
      rw [h 1 (Or.inl rfl) _ _ hi, h 1 (Or.inl rfl) _ _ hi, h 1 (Or.inl rfl) _ _ hi, h 1 (Or.inl rfl) _ _ hi]
      ring
    · rw [dftSum_add, conv_dft hn a b hk, dc_dft n hn, add_comm]

theorem dftRader_ok (mp : Magic) (rec : Dft) (sign : ℤ) (p : ℕ) (hp : p.Prime) (h : IsDft rec (p - 1)) (x : Signal) (k : ℕ) (hk : k < p) :
    dftRader mp rec sign p x k = dftSum sign p x k := by
  haveI : Fact p.Prime := ⟨hp⟩
  have h2 := hp.two_le
  obtain ⟨g, hg, g0, g1, go⟩ := findGenerator_ok (p := p)
  unfold dftRader
  rw [hg]
  simp only [powMod_eq _ _ _ hp.one_lt]
  obtain ⟨gi, hgi⟩ : ∃ gi, g ^ (p - 2) % p = gi := ⟨_, rfl⟩
  rw [hgi]
  have hne : (g : ZMod p) ≠ 0 := by
    intro h; rw [ZMod.natCast_eq_zero_iff] at h; exact absurd (Nat.le_of_dvd g0 h) (by omega)
  have hgg : (g : ZMod p) ^ (p - 1) = 1 := ZMod.pow_card_sub_one_eq_one hne
  have hinv : (gi : ZMod p) * g = 1 := by
    rw [← hgi, ZMod.natCast_mod]; push_cast
    rw [← pow_succ, show p - 2 + 1 = p - 1 by omega, hgg]
  have hconv : ∀ f, ConvOk f (p - 1) → ∀ sc, f (p - 1) (array p fun i => x (g ^ i % p)) (array p fun i => cis p (sign * (gi ^ i % p : ℕ))) (x 0) = sc →
      array p (fun i => if i = 0 then x 0 + sc.1 else match suchthat 0 fun i' => i = array p (fun i => gi ^ i % p) i' with
        | none => 0
        | some i' => sc.2 i') k = dftSum sign p x k := by
    intro f hf sc hsc
    obtain ⟨c1, c2⟩ := hf (array p fun i => x (g ^ i % p)) (array p fun i => cis p (sign * (gi ^ i % p : ℕ))) (x 0)
    rw [hsc] at c1 c2
    rw [array, if_pos hk]
    have hsplit : dftSum sign p x k = x 0 + ∑ i ∈ range (p - 1), cis p (sign * (g ^ i % p : ℕ) * k) * x (g ^ i % p) := by
      unfold dftSum
      rw [range_eq_Ico, sum_eq_sum_Ico_succ_bot (by omega), zero_add, sum_gen g0 g1 go]
      simp
    rw [hsplit]
    split
    · rename_i h0
      subst h0
      rw [c1]
      congr 1
      refine sum_congr rfl fun i hi => ?_
      rw [mem_range] at hi
      simp [array, show i < p by omega]
    · rename_i h0
      -- the discrete logarithm exists
      have hex : ∃ i0 < p - 1, gi ^ i0 % p = k := by
        have hk' : k ∈ Ico 1 p := by rw [mem_Ico]; omega
        have : ∃ j < p - 1, g ^ j % p = k := by
          by_contra hcon
          push Not at hcon
          have e1 := sum_gen g0 g1 go (fun j => if j = k then (1 : ℕ) else 0)
          rw [sum_ite_eq', if_pos hk', sum_eq_zero (fun i hi => if_neg (hcon i (mem_range.1 hi)))] at e1
          omega
        obtain ⟨j, hj, hjk⟩ := this
        refine ⟨(p - 1 - j) % (p - 1), Nat.mod_lt _ (by omega), ?_⟩
        rw [← hjk]
        rw [← ZMod.natCast_eq_natCast_iff']
        push_cast
        have hgi1 : (gi : ZMod p) ^ (p - 1) = 1 := by
          have : ((gi : ZMod p) * g) ^ (p - 1) = 1 := by rw [hinv, one_pow]
          rwa [mul_pow, hgg, mul_one] at this
        have e1 : (gi : ZMod p) ^ ((p - 1 - j) % (p - 1)) = (gi : ZMod p) ^ (p - 1 - j) := by
          conv_rhs => rw [← Nat.mod_add_div (p - 1 - j) (p - 1), pow_add, pow_mul, hgi1, one_pow, mul_one]
        rw [e1]
        have e2 : (gi : ZMod p) ^ (p - 1 - j) * (gi : ZMod p) ^ j = 1 := by rw [← pow_add, show p - 1 - j + j = p - 1 by omega, hgi1]
        have e3 : (g : ZMod p) ^ j * (gi : ZMod p) ^ j = 1 := by rw [← mul_pow, mul_comm, hinv, one_pow]
        have e4 : (gi : ZMod p) ^ j ≠ 0 := fun h => by rw [h, mul_zero] at e3; exact zero_ne_one e3
        exact mul_right_cancel₀ e4 (e2.trans e3.symm)
      obtain ⟨i0, hi0, hi0k⟩ := hex
      obtain ⟨i', hi', hpi, hle⟩ := suchthat_ok (fun i' => k = array p (fun i => gi ^ i % p) i') i0 (by simp [array, show i0 < p by omega, hi0k]) i0 0 (by omega)
      rw [hi']
      simp only
      have hi'p : i' < p - 1 := by omega
      simp only [decide_eq_true_eq, array, if_pos (show i' < p by omega)] at hpi
      rw [c2 i' hi'p]
      congr 1
      refine sum_congr rfl fun j hj => ?_
      rw [mem_range] at hj
      have hlt : (i' + (p - 1) - j) % (p - 1) < p := lt_of_lt_of_le (Nat.mod_lt _ (by omega)) (by omega)
      simp only [array, if_pos (show j < p by omega), if_pos hlt]
      rw [mul_comm]
      congr 1
      apply cis_congr
      rw [mul_assoc, ← mul_sub]
      apply Dvd.dvd.mul_left
      rw [← ZMod.intCast_zmod_eq_zero_iff_dvd, hpi]
      push_cast
      have hgi1 : (gi : ZMod p) ^ (p - 1) = 1 := by
        have : ((gi : ZMod p) * g) ^ (p - 1) = 1 := by rw [hinv, one_pow]
        rwa [mul_pow, hgg, mul_one] at this
      have e0 : (gi : ZMod p) ^ ((i' + (p - 1) - j) % (p - 1)) = (gi : ZMod p) ^ (i' + (p - 1) - j) := by
        conv_rhs => rw [← Nat.mod_add_div (i' + (p - 1) - j) (p - 1), pow_add, pow_mul, hgi1, one_pow, mul_one]
      rw [e0]
      have e2 : (gi : ZMod p) ^ (i' + (p - 1) - j) * (gi : ZMod p) ^ j = gi ^ i' := by
        rw [← pow_add, show i' + (p - 1) - j + j = i' + (p - 1) by omega, pow_add, hgi1, mul_one]
      have e3 : (gi : ZMod p) ^ j * (g : ZMod p) ^ j = 1 := by rw [← mul_pow, hinv, one_pow]
      linear_combination (g : ZMod p) ^ j * e2 - (gi : ZMod p) ^ (i' + (p - 1) - j) * e3
  have hp1 : p - 1 ≠ 0 := by omega
  split
  · exact hconv _ (convAlt_ok rec (p - 1) hp1 h) _ rfl
  · exact hconv _ (convFft_ok rec (p - 1) hp1 h) _ rfl

end FFTW.Genfft
