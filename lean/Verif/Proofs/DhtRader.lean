import Verif.Model.DhtRader
import Verif.Proofs.DhtRaderMath
import Verif.Proofs.Rader

/-! # rdft/dht-rader.c is correct -/

namespace FFTW.RdftS
open Tensor Spec Finset DftS Reodft

local notation "π" => Real.pi

theorem permWalk_eq {g n : ℕ} (hn : 1 < n) (hnI : (n : ℤ) ≤ INT_MAX) (hg : g < n) (k0 cnt : ℕ) (body : ℕ → ℤ → State → State) (st : State) :
    permWalk g n k0 cnt body (((g ^ k0 % n : ℕ) : ℤ), st) =
      (((g ^ (k0 + cnt) % n : ℕ) : ℤ), forN cnt (fun t => body (k0 + t) ((g ^ (k0 + t) % n : ℕ) : ℤ)) st) := by
  unfold permWalk
  induction cnt with
  | zero => rfl
  | succ c ih =>
    have hm : g ^ (k0 + c) % n < n := Nat.mod_lt _ (by omega)
    simp only [iter, ih, forN]
    rw [Primes.MULMOD_some hnI (by positivity) (by exact_mod_cast hm) (by positivity) (by exact_mod_cast hg)]
    simp only [Option.getD_some]
    congr 1
    rw [← add_assoc, pow_succ, Nat.mul_mod (g ^ (k0 + c)) g n, Nat.mod_eq_of_lt hg]
    push_cast
    rfl

/-- one more power -/
theorem mulmod_pow {g n : ℕ} (hn : 1 < n) (hnI : (n : ℤ) ≤ INT_MAX) (hg : g < n) (k : ℕ) :
    (Primes.MULMOD ((g ^ k % n : ℕ) : ℤ) g n).getD 0 = ((g ^ (k + 1) % n : ℕ) : ℤ) := by
  have hm : g ^ k % n < n := Nat.mod_lt _ (by omega)
  rw [Primes.MULMOD_some hnI (by positivity) (by exact_mod_cast hm) (by positivity) (by exact_mod_cast hg), Option.getD_some, pow_succ, Nat.mul_mod (g ^ k) g n, Nat.mod_eq_of_lt hg]
  push_cast
  rfl

theorem zeropad_fill {m0 : Ptr → ℝ} {nx : ℕ} {B : Ptr} {N m : ℕ} {A : ℕ → ℝ} {st : State} (hm : m ≤ N) (hA : ∀ k < N, m ≤ k → A k = 0)
    (f : Fill m0 nx B 1 N A (fun k => k < m) st) :
    Fill m0 nx B 1 N A (fun _ => True) (forN (N - m) (fun t st => st.set (B + ((m + t : ℕ) : ℤ)) 0) st) := by
  refine (Fill.loop (S := fun t k => k < m + t) (f.mono (by intro k hk; simp)) ?_).mono (by intro k hk _; omega)
  intro t ht st1 f
  refine (f.set (one_RInj N) (k := m + t) (by omega) (by rw [mul_one]) (hA _ (by omega) (by omega)).symm).mono (by intro k hk; omega)

/-- the permuted and padded input -/
noncomputable def dhtIn (n g : ℕ) (x : ℕ → ℝ) (k : ℕ) : ℝ := if k < n - 1 then x (g ^ k % n) else 0

theorem dhtIn_fill {n g npad : ℕ} (hn : 1 < n) (hnI : (n : ℤ) ≤ INT_MAX) (hg : g < n) (hle : n - 1 ≤ npad) {is : ℤ} (I B : Ptr) (st : State) (hIB : I.blk ≠ B.blk) :
    Fill st.mem st.next B 1 npad (dhtIn n g fun j => st.mem (I + (j : ℤ) * is)) (fun _ => True)
      (forN (npad - (n - 1)) (fun t st => st.set (B + ((n - 1 + t : ℕ) : ℤ)) 0)
        (permLoop g n (n - 1) (fun k gpower st => st.set (B + (k : ℤ)) (st.mem (I + gpower * is))) st)) := by
  apply zeropad_fill hle
  · intro k _ h; rw [dhtIn, if_neg (by omega)]
  rw [permLoop_eq hn hnI hg]
  refine Fill.loop (S := fun i k => k < i) ((Fill.start st B 1 npad _).mono (by intro k hk; simp)) ?_
  intro i hi st1 f
  refine (f.set (one_RInj _) (k := i) (by omega) (by rw [mul_one]) ?_).mono (by intro k hk; omega)
  rw [f.get' hIB, dhtIn, if_pos hi]

theorem dhtMul_spec {omega : ℕ → ℝ} {npad : ℕ} (he : npad % 2 = 0) (h0 : 0 < npad) (B : Ptr) (st : State) :
    Upd st.mem st.next B 1 npad (dhtProd npad omega (fun k => st.mem (B + (k : ℤ))) 0) (fun _ => True) (dhtMul omega npad B st) := by
  have hs := one_RInj npad
  set A := dhtProd npad omega (fun k => st.mem (B + (k : ℤ))) 0 with hA
  have z : B + ((0 : ℕ) : ℤ) = B := by rw [Nat.cast_zero, ptr_add_zero]
  have mo : ∀ k : ℕ, B + (k : ℤ) * 1 = B + (k : ℤ) := fun k => by rw [mul_one]
  unfold dhtMul
  dsimp only
  have f1 := (Upd.start st B 1 npad A).set hs (k := 0) h0 (p := B) (by rw [mo, z]) (v := st.mem B * omega 0) (by
    rw [hA, dhtProd, hcRe, if_pos (by omega), hcRe, if_pos (by omega), hcIm, if_pos (by omega), hcIm, if_pos (by omega), z]; simp; ring)
  have f2 := Upd.loop (S := fun i k => k = 0 ∨ 1 ≤ k ∧ k ≤ i ∨ npad - i ≤ k ∧ k < npad) (f1.congr (by intro k hk; beta_reduce; simp only [false_or]; omega)) (N := npad / 2 - 1)
    (f := fun k0 st =>
      let k := k0 + 1
      let rW := omega k
      let iW := omega (npad - k)
      let rB := st.mem (B + (k : ℤ))
      let iB := st.mem (B + ((npad - k : ℕ) : ℤ))
      let a := rW * rB - iW * iB
      let b := rW * iB + iW * rB
      (st.set (B + (k : ℤ)) (a + b)).set (B + ((npad - k : ℕ) : ℤ)) (a - b)) (by
      intro i hi st1 f
      dsimp only
      have ea := f.old hs (k := i + 1) (by omega) (by omega)
      have eb := f.old hs (k := npad - (i + 1)) (by omega) (by omega)
      rw [mo] at ea eb
      refine ((f.set hs (k := i + 1) (by omega) (mo _).symm ?_).set hs (k := npad - (i + 1)) (by omega) (mo _).symm ?_).congr (by intro k hk; beta_reduce; omega)
      · rw [hA, dhtProd, hcRe, if_pos (by omega), hcRe, if_pos (by omega), hcIm, if_neg (by omega), if_pos (by omega), hcIm, if_neg (by omega), if_pos (by omega), if_neg (by omega), ea, eb]
        ring
      · rw [hA, dhtProd, hcRe, if_neg (by omega), hcRe, if_neg (by omega), hcIm, if_neg (by omega), if_neg (by omega), hcIm, if_neg (by omega), if_neg (by omega), if_neg (by omega), ea, eb,
          show npad - (npad - (i + 1)) = i + 1 by omega]
        ring)
  dsimp only at f2
  have e := f2.old hs (k := npad / 2) (by omega) (by omega)
  rw [mo] at e
  refine (f2.set hs (k := npad / 2) (by omega) (mo _).symm ?_).congr (by intro k hk; simp only [true_iff]; omega)
  rw [e, hA, dhtProd, hcRe, if_pos (by omega), hcRe, if_pos (by omega), hcIm, if_pos (by omega), hcIm, if_pos (by omega), if_neg (by omega)]; ring

/-- the final permutation writes each output except the first -/
theorem dhtUnshuffle_fill {n h npad : ℕ} [Fact n.Prime] (hn2 : 2 < n) (hnI : (n : ℤ) ≤ INT_MAX) (hh0 : 0 < h) (hh : h < n) (ho : orderOf (h : ZMod n) = n - 1)
    (hpad : npad = n - 1 ∨ 2 * (n - 1) ≤ npad) (he : npad % 2 = 0) {os : ℤ} (hos : RInj os n) {B O : Ptr} {st : State} (hBO : B.blk ≠ O.blk) {A : ℕ → ℝ} (h0 : A 0 = st.mem O)
    (hA : ∀ j < n - 1, A (h ^ j % n) = hcRe npad (fun k => st.mem (B + (k : ℤ))) j + hcIm npad (fun k => st.mem (B + (k : ℤ))) j) :
    Fill st.mem st.next O os n A (fun _ => True) (dhtUnshuffle n npad h os B O st) := by
  have z : B + ((0 : ℕ) : ℤ) = B := by rw [Nat.cast_zero, ptr_add_zero]
  have hlt : ∀ k, h ^ k % n < n := fun k => Nat.mod_lt _ (by omega)
  have a0 : A 1 = st.mem B := by
    have := hA 0 (by omega)
    rw [pow_zero, Nat.mod_eq_of_lt (by omega)] at this
    rw [this, hcRe, if_pos (by omega), hcIm, if_pos (by simp), z, add_zero]
  have aplus : ∀ k, 0 < k → 2 * k < npad → k < n - 1 → A (h ^ k % n) = st.mem (B + (k : ℤ)) + st.mem (B + ((npad - k : ℕ) : ℤ)) := by
    intro k h1 h2 h3
    rw [hA k h3, hcRe, if_pos (by omega), hcIm, if_neg (by omega), if_pos h2]
  have amid : ∀ k, 0 < k → 2 * k = npad → k < n - 1 → A (h ^ k % n) = st.mem (B + (k : ℤ)) := by
    intro k h1 h2 h3
    rw [hA k h3, hcRe, if_pos (by omega), hcIm, if_pos (by omega), add_zero]
  have aminus : ∀ k, k < npad → npad < 2 * k → k < n - 1 → A (h ^ k % n) = st.mem (B + ((npad - k : ℕ) : ℤ)) - st.mem (B + (k : ℤ)) := by
    intro k h1 h2 h3
    rw [hA k h3, hcRe, if_neg (by omega), hcIm, if_neg (by omega), if_neg (by omega)]; ring
  -- indices written so far
  let T : ℕ → ℕ → Prop := fun m k => k = 0 ∨ ∃ i < m, k = h ^ i % n
  have f0 : Fill st.mem st.next O os n A (fun k => k = 0) st := ⟨rfl, fun _ _ => rfl, fun k _ hk => by subst hk; rw [h0, Nat.cast_zero, zero_mul, ptr_add_zero]⟩
  have hpow1 : h ^ 0 % n = 1 := by rw [pow_zero, Nat.mod_eq_of_lt (by omega)]
  have step : ∀ {st1 : State} {m : ℕ} {v : ℝ}, Fill st.mem st.next O os n A (T m) st1 → v = A (h ^ m % n) →
      Fill st.mem st.next O os n A (T (m + 1)) (st1.set (O + ((h ^ m % n : ℕ) : ℤ) * os) v) := by
    intro st1 m v f hv
    refine (f.set hos (hlt m) rfl hv).mono ?_
    rintro k hk (h | ⟨i, hi, h⟩)
    · exact Or.inl (Or.inl h)
    · rcases Nat.lt_succ_iff_lt_or_eq.1 hi with hi | rfl
      · exact Or.inl (Or.inr ⟨i, hi, h⟩)
      · exact Or.inr h
  have f1 : Fill st.mem st.next O os n A (T 1) (st.set (O + os) (st.mem B)) := by
    have := step (st1 := st) (m := 0) (v := st.mem B) (f0.mono (by rintro k hk (h | ⟨i, hi, _⟩); exact h; omega)) (by rw [hpow1, a0])
    rwa [hpow1, Nat.cast_one, one_mul] at this
  have fin : ∀ {st1 : State}, Fill st.mem st.next O os n A (T (n - 1)) st1 → Fill st.mem st.next O os n A (fun _ => True) st1 := by
    intro st1 f
    refine f.mono fun k hk _ => ?_
    rcases Nat.eq_zero_or_pos k with h0 | h0
    · exact Or.inl h0
    · obtain ⟨i, hi, e⟩ := pow_mod_surj hh0 hh ho h0 hk
      exact Or.inr ⟨i, hi, e.symm⟩
  have rd : ∀ {S : ℕ → Prop} {st1 : State}, Fill st.mem st.next O os n A S st1 → ∀ a : ℤ, st1.mem (B + a) = st.mem (B + a) := fun f a => f.get' hBO a
  have hg1 : (h : ℤ) = ((h ^ 1 % n : ℕ) : ℤ) := by rw [pow_one, Nat.mod_eq_of_lt hh]
  unfold dhtUnshuffle
  dsimp only
  split
  · rename_i hnp
    rw [show ((h : ℤ), st.set (O + os) (st.mem B)) = (((h ^ 1 % n : ℕ) : ℤ), st.set (O + os) (st.mem B)) by rw [← hg1]]
    rw [permWalk_eq (by omega) hnI hh]
    dsimp only
    rw [mulmod_pow (by omega) hnI hh, show 1 + (npad / 2 - 1) = npad / 2 by omega, permWalk_eq (by omega) hnI hh]
    dsimp only
    apply fin
    have f2 := Fill.loop (S := fun i => T (1 + i)) f1 (N := npad / 2 - 1)
      (f := fun t st => st.set (O + ((h ^ (1 + t) % n : ℕ) : ℤ) * os) (st.mem (B + ((1 + t : ℕ) : ℤ)) + st.mem (B + ((npad - (1 + t) : ℕ) : ℤ)))) (by
        intro i hi st1 f
        exact step (m := 1 + i) f (by rw [rd f, rd f, aplus (1 + i) (by omega) (by omega) (by omega)]))
    rw [show 1 + (npad / 2 - 1) = npad / 2 by omega] at f2
    have f3 := step (m := npad / 2) (v := st.mem (B + ((npad / 2 : ℕ) : ℤ))) f2 (amid (npad / 2) (by omega) (by omega) (by omega)).symm
    have f4 := Fill.loop (S := fun i => T (npad / 2 + 1 + i)) f3 (N := npad - (npad / 2 + 1))
      (f := fun t st => st.set (O + ((h ^ (npad / 2 + 1 + t) % n : ℕ) : ℤ) * os) (st.mem (B + ((npad - (npad / 2 + 1 + t) : ℕ) : ℤ)) - st.mem (B + ((npad / 2 + 1 + t : ℕ) : ℤ)))) (by
        intro i hi st1 f
        exact step (m := npad / 2 + 1 + i) f (by rw [rd f, rd f, aminus (npad / 2 + 1 + i) (by omega) (by omega) (by omega)]))
    rw [show npad / 2 + 1 + (npad - (npad / 2 + 1)) = n - 1 by omega] at f4
    rw [rd f2]
    exact f4
  · rename_i hnp
    rw [show ((h : ℤ), st.set (O + os) (st.mem B)) = (((h ^ 1 % n : ℕ) : ℤ), st.set (O + os) (st.mem B)) by rw [← hg1]]
    rw [permWalk_eq (by omega) hnI hh]
    dsimp only
    apply fin
    have f2 := Fill.loop (S := fun i => T (1 + i)) f1 (N := n - 2)
      (f := fun t st => st.set (O + ((h ^ (1 + t) % n : ℕ) : ℤ) * os) (st.mem (B + ((1 + t : ℕ) : ℤ)) + st.mem (B + ((npad - (1 + t) : ℕ) : ℤ)))) (by
        intro i hi st1 f
        exact step (m := 1 + i) f (by rw [rd f, rd f, aplus (1 + i) (by omega) (by omega) (by omega)]))
    rw [show 1 + (n - 2) = n - 1 by omega] at f2
    exact f2

theorem dhtOmega_ok {cexp : ℕ → ℤ → ℝ × ℝ} (hc : ExactCexp cexp) {n h npad : ℕ} (hn : 2 < n) (hnI : (n : ℤ) ≤ INT_MAX) (hh : h < n)
    (hpad : npad = n - 1 ∨ 2 * (n - 1) ≤ npad) {cld : Plan} (hG : InBuf npad cld.rdftApply fun u k => ∑ j ∈ range npad, rK .R2HC00 npad j k * u j) {k : ℕ} (hk : k < npad) :
    dhtOmega cexp n npad h cld k = ∑ j ∈ range npad, rK .R2HC00 npad j k * (dhtW n h npad j / npad) := by
  have hs := one_RInj npad
  unfold dhtOmega
  dsimp only
  rw [permLoop_eq (by omega) hnI hh]
  set B : Ptr := ⟨0, 0⟩ with hB
  obtain ⟨st0, hst0⟩ : ∃ st0 : State, st0 = { mem := fun _ => 0, next := 1 } := ⟨_, rfl⟩
  rw [← hst0]
  have mo : ∀ k : ℕ, B + (k : ℤ) * 1 = B + (k : ℤ) := fun k => by rw [mul_one]
  -- before the periodic continuation
  let A1 : ℕ → ℝ := fun i => if i < n - 1 then dhtW n h npad i / npad else 0
  generalize hst1 : forN (n - 1) _ st0 = st1
  have f1 : Fill st0.mem st0.next B 1 npad A1 (fun k => k < n - 1) st1 := by
    rw [← hst1]
    refine Fill.loop (S := fun i k => k < i) ((Fill.start st0 B 1 npad _).mono (by intro k hk; simp)) ?_
    intro i hi st f
    refine (f.set hs (k := i) (by omega) (mo _).symm ?_).mono (by intro k hk; omega)
    have hm : h ^ i % n < n := Nat.mod_lt _ (by omega)
    rw [hc n _ (by omega) (by omega) (by exact_mod_cast hm)]
    simp only [A1]
    rw [if_pos hi, dhtW, if_pos hi]
    norm_cast
  have f2 := zeropad_fill (by omega) (by intro k _ hk; simp only [A1]; rw [if_neg (by omega)]) f1
  generalize hst2 : forN (npad - (n - 1)) _ st1 = st2 at f2
  have fin : ∀ st : State, Fill st0.mem st0.next B 1 npad (fun j => dhtW n h npad j / npad) (fun _ => True) st →
      (cld.rdftApply B B st).mem (B + (k : ℤ)) = ∑ j ∈ range npad, rK .R2HC00 npad j k * (dhtW n h npad j / npad) := by
    intro st f
    obtain ⟨-, -, h3⟩ := hG B st (by rw [f.next, hst0]; simp [hB])
    rw [h3 (fun j => st.mem (B + (j : ℤ))) (fun _ _ => rfl) k hk]
    refine sum_congr rfl fun j hj => ?_
    have := f.val j (mem_range.1 hj) trivial
    rw [mo] at this
    beta_reduce
    rw [this]
  apply fin
  split
  · rename_i hlt
    have u := Upd.loop (S := fun i k => npad - i ≤ k ∧ k < npad) ((Upd.start st2 B 1 npad (fun j => dhtW n h npad j / npad)).congr (by intro k hk; beta_reduce; simp only [iff_false]; omega)) (N := n - 2)
      (f := fun i0 st => st.set (B + ((npad - (i0 + 1) : ℕ) : ℤ)) (st.mem (B + ((n - 1 - (i0 + 1) : ℕ) : ℤ)))) (by
        intro i hi st f
        refine (f.set hs (k := npad - (i + 1)) (by omega) (mo _).symm ?_).congr (by intro k hk; beta_reduce; omega)
        have e := f.old hs (k := n - 1 - (i + 1)) (by omega) (by omega)
        have e' := f2.val (n - 1 - (i + 1)) (by omega) trivial
        rw [mo] at e e'
        rw [e, e']
        simp only [A1]
        rw [if_pos (by omega), dhtW, if_pos (by omega), dhtW, if_neg (by omega), if_pos (by omega), show npad - (i + 1) + (n - 1) - npad = n - 1 - (i + 1) by omega])
    refine ⟨u.next.trans f2.next, fun q hq => (u.out q fun k hk _ => hq k hk).trans (f2.out q hq), fun j hj _ => ?_⟩
    by_cases hjn : npad - (n - 2) ≤ j
    · exact u.val j hj ⟨hjn, hj⟩
    · rw [u.old hs hj (by omega), f2.val j hj trivial]
      simp only [A1]
      split_ifs with h1
      · rfl
      · rw [dhtW, if_neg h1, if_neg (by omega), zero_div]
  · refine ⟨f2.next, f2.out, fun j hj _ => ?_⟩
    rw [f2.val j hj trivial]
    simp only [A1]
    rw [if_pos (by omega)]

theorem dhtRaderApply_ok {n g h npad : ℕ} [Fact n.Prime] (hn2 : 2 < n) (hnI : (n : ℤ) ≤ INT_MAX) (hg0 : 0 < g) (hgn : g < n)
    (ho : orderOf (g : ZMod n) = n - 1) (hh0 : 0 < h) (hhn : h < n) (hgh : (g : ZMod n) * h = 1) (hpad : npad = n - 1 ∨ 2 * (n - 1) ≤ npad) (he : npad % 2 = 0)
    {omega : ℕ → ℝ} (hW : ∀ k < npad, omega k = ∑ j ∈ range npad, rK .R2HC00 npad j k * (dhtW n h npad j / npad)) {cld1 cld2 : Plan}
    (h1 : InBuf npad cld1.rdftApply fun u k => ∑ j ∈ range npad, rK .R2HC00 npad j k * u j)
    (h2 : InBuf npad cld2.rdftApply fun u k => ∑ j ∈ range npad, rK .R2HC00 npad j k * u j) (is os : ℤ) :
    R1x .DHT n is os (dhtRaderApply omega cld1 cld2 n npad g h is os) := by
  intro hos I O st bI bO
  have hN : 0 < npad := by omega
  have hs := one_RInj npad
  set B := st.fresh with hB
  have hBb : B.blk = st.next := rfl
  have mo : ∀ k : ℕ, B + (k : ℤ) * 1 = B + (k : ℤ) := fun k => by rw [mul_one]
  have z : B + ((0 : ℕ) : ℤ) = B := by rw [Nat.cast_zero, ptr_add_zero]
  have nB : ∀ {q : Ptr} (a : ℤ), q.blk < st.next → q ≠ B + a := by
    intro q a hq e
    have h2 := congrArg Ptr.blk e
    have : q.blk = B.blk := h2
    omega
  set x : ℕ → ℝ := fun j => st.mem (I + (j : ℤ) * is) with hx
  have hx0 : x 0 = st.mem I := by rw [hx]; simp only [Nat.cast_zero, zero_mul, ptr_add_zero]
  -- input
  have f1 := dhtIn_fill (n := n) (g := g) (npad := npad) (by omega) hnI hgn (by omega) (is := is) I B st.malloc (by omega)
  generalize hst1 : forN (npad - (n - 1)) _ (permLoop _ _ _ _ st.malloc) = st1 at f1
  have n1 : st1.next = st.next + 1 := f1.next
  have m1 : ∀ q : Ptr, q.blk < st.next → st1.mem q = st.mem q := fun q hq => f1.get (by omega)
  have v1 : ∀ k < npad, st1.mem (B + (k : ℤ)) = dhtIn n g x k := fun k hk => by rw [← mo, f1.val k hk trivial]; rfl
  -- first transform
  obtain ⟨c1, c2, c3⟩ := h1 B st1 (by omega)
  generalize hst2 : cld1.rdftApply B B st1 = st2 at c1 c2 c3
  have m2 : ∀ q : Ptr, q.blk < st.next → st2.mem q = st.mem q := fun q hq => by rw [c2 q (by omega) fun k _ => nB _ hq, m1 q hq]
  set A : ℕ → ℝ := fun k => st2.mem (B + (k : ℤ)) with hA
  have v2 : ∀ k < npad, A k = ∑ j ∈ range npad, rK .R2HC00 npad j k * dhtIn n g x j := fun k hk => c3 _ (fun j hj => (v1 j hj).symm) k hk
  -- DC
  obtain ⟨st3, hst3⟩ : ∃ st3, st3 = st2.set O (st2.mem I + st2.mem B) := ⟨_, rfl⟩
  have n3 : st3.next = st2.next := by rw [hst3]; rfl
  have v3 : ∀ k : ℕ, st3.mem (B + (k : ℤ)) = A k := fun k => by rw [hst3, State.set_mem_ne _ (nB _ bO).symm]
  have m3 : ∀ q : Ptr, q.blk < st.next → q ≠ O → st3.mem q = st.mem q := fun q hq hqO => by rw [hst3, State.set_mem_ne _ hqO, m2 q hq]
  have o3 : st3.mem O = x 0 + A 0 := by rw [hst3, State.set_mem_same, m2 I bI, hx0, hA]; simp only [z]
  -- multiplication
  have f4 := dhtMul_spec (omega := omega) he hN B st3
  generalize hst4 : dhtMul omega npad B st3 = st4 at f4
  have v4 : ∀ k < npad, st4.mem (B + (k : ℤ)) = dhtProd npad omega A 0 k := fun k hk => by
    rw [← mo, f4.val k hk trivial]; simp only [v3]
  have m4 : ∀ q : Ptr, q.blk < st.next → st4.mem q = st3.mem q := fun q hq => f4.get (by omega)
  obtain ⟨st5, hst5⟩ : ∃ st5, st5 = st4.set B (st4.mem B + st2.mem I) := ⟨_, rfl⟩
  have n5 : st5.next = st2.next := by rw [hst5]; exact f4.next.trans n3
  have v5 : ∀ k < npad, st5.mem (B + (k : ℤ)) = dhtProd npad omega A (x 0) k := by
    intro k hk
    by_cases hk0 : k = 0
    · subst hk0
      have := v4 0 hN
      rw [z] at this ⊢
      rw [hst5, State.set_mem_same, this, m2 I bI, ← hx0, dhtProd, dhtProd, if_pos rfl, if_pos rfl]; ring
    · rw [hst5, State.set_mem_ne _ ?_, v4 k hk, dhtProd, dhtProd, if_neg hk0, if_neg hk0]
      intro e
      have e2 : B + (k : ℤ) = B + ((0 : ℕ) : ℤ) := e.trans z.symm
      rw [ptr_add_right_inj] at e2
      omega
  have m5 : ∀ q : Ptr, q.blk < st.next → st5.mem q = st3.mem q := fun q hq => by
    rw [hst5, State.set_mem_ne _ (by have := nB 0 hq; rwa [ptr_add_zero] at this), m4 q hq]
  -- second transform
  obtain ⟨d1, d2, d3⟩ := h2 B st5 (by omega)
  generalize hst6 : cld2.rdftApply B B st5 = st6 at d1 d2 d3
  set Z : ℕ → ℝ := fun k => st6.mem (B + (k : ℤ)) with hZ
  have v6 : ∀ k < npad, Z k = ∑ j ∈ range npad, rK .R2HC00 npad j k * dhtProd npad omega A (x 0) j := fun k hk => d3 _ (fun j hj => (v5 j hj).symm) k hk
  have m6 : ∀ q : Ptr, q.blk < st.next → st6.mem q = st3.mem q := fun q hq => by rw [d2 q (by omega) fun k _ => nB _ hq, m5 q hq]
  -- output
  set Y : ℕ → ℝ := fun k => ∑ j ∈ range n, rK .DHT n j k * x j with hY
  have hoh := order_inv ho hgh
  have y0 : Y 0 = x 0 + A 0 := by
    rw [hY, v2 0 hN]
    simp only [dht_zero, r2hc_zero, one_mul]
    rw [range_eq_Ico (a := n), sum_eq_sum_Ico_succ_bot (a := 0) (b := n) (by omega), Genfft.sum_gen hg0 hgn ho]
    congr 1
    have : ∑ j ∈ range npad, dhtIn n g x j = ∑ j ∈ range (n - 1), dhtIn n g x j := by
      symm
      refine sum_subset (range_mono (by omega)) fun k _ hk => ?_
      rw [dhtIn, if_neg (by simpa using hk)]
    rw [this]
    exact sum_congr rfl fun j hj => by rw [dhtIn, if_pos (mem_range.1 hj)]
  have f7 := dhtUnshuffle_fill hn2 hnI hh0 hhn hoh hpad he hos (B := B) (O := O) (st := st6) (by omega) (A := Y) (by rw [m6 O bO, o3, y0]) (by
    intro j hj
    rw [dht_conv hN (a := dhtIn n g x) (w := dhtW n h npad) v2 hW v6 (by omega)]
    exact (dht_rader_math hg0 hgn ho hgh hpad x hj).symm)
  have hfun : ∀ q, (dhtRaderApply omega cld1 cld2 n npad g h is os I O st).mem q = (dhtUnshuffle n npad h os B O st6).mem q := by
    intro q
    unfold dhtRaderApply
    rw [withBuf_mem]
    dsimp only
    rw [← hB, hst1, hst2, ← hst3, hst4, ← hst5, hst6]
  refine ⟨le_of_eq (withBuf_next _ _).symm, fun q hq hk => ?_, fun k hk => ?_⟩
  · have h0 := hk 0 (by omega)
    rw [Nat.cast_zero, zero_mul, ptr_add_zero] at h0
    rw [hfun, f7.out q hk, m6 q hq, m3 q hq h0]
  · rw [hfun, f7.val k hk trivial]

theorem dhtTransformSize_ge (m r : Int) (h : dhtTransformSize m = some r) : m ≤ r ∧ r % 2 = 0 := by
  refine dhtTransformSize.partial_correctness (fun m r => m ≤ r ∧ r % 2 = 0) ?_ m r h
  clear h m r
  intro f ih m r h
  simp only [Option.bind_eq_bind] at h
  obtain ⟨b, hb, h⟩ := Option.bind_eq_some_iff.1 h
  split at h
  · obtain ⟨m', hm', h⟩ := Option.bind_eq_some_iff.1 h
    obtain rfl := Primes.cadd_eq hm'
    have := ih _ _ h
    omega
  · rename_i hc
    obtain rfl := Option.some.inj h
    simp at hc
    omega

theorem dhtNpad_spec {pad : Bool} {n : ℕ} (hn : 2 < n) (ho : n % 2 = 1) {r : Int} (h : dhtNpad pad n = some r) :
    (r.toNat = n - 1 ∨ 2 * (n - 1) ≤ r.toNat) ∧ r.toNat % 2 = 0 ∧ 0 < r.toNat := by
  unfold dhtNpad at h
  split at h
  · simp only [Option.bind_eq_bind] at h
    obtain ⟨a, ha, h⟩ := Option.bind_eq_some_iff.1 h
    obtain ⟨b, hb, h⟩ := Option.bind_eq_some_iff.1 h
    obtain ⟨c, hc, h⟩ := Option.bind_eq_some_iff.1 h
    obtain rfl := Primes.csub_eq ha
    obtain rfl := Primes.cmul_eq hb
    obtain rfl := Primes.csub_eq hc
    have := dhtTransformSize_ge _ _ h
    omega
  · obtain rfl := Option.some.inj h
    omega

variable [CLib]

theorem dhtRader_sound {cexp : ℕ → ℤ → ℝ × ℝ} (hc : ExactCexp cexp) (pad : Bool) (taste : Taste) : (dhtRader cexp pad taste).Sound := by
  apply rdftSolver_sound
  intro p fl hk
  split
  rotate_left
  · exact good_nada
  rename_i d hsz hv
  split
  rotate_left
  · exact good_nada
  rename_i happ
  have hp : d.n.Prime := by
    have := Primes.isPrime_true happ.1
    rwa [Int.toNat_natCast] at this
  have : Fact d.n.Prime := ⟨hp⟩
  have hnI := Primes.isPrime_le happ.1
  have hn2 : 2 < d.n := happ.2.1
  have hodd : d.n % 2 = 1 := by rcases hp.eq_two_or_odd with h | h <;> omega
  cases hnp : dhtNpad pad d.n with
  | none => exact good_nada
  | some npadI =>
  obtain ⟨hpad, he, hpos⟩ := dhtNpad_spec hn2 hodd hnp
  obtain ⟨g, hgen, hg1, hgn, ho, -⟩ := Primes.findGenerator_some hp hnI
  have hpow := Primes.powerMod_some hnI (by exact_mod_cast hp.two_le) (by positivity) (show (g : ℤ) < d.n by exact_mod_cast hgn) (d.n - 2) (d.n - 2) (le_refl _) (by omega)
  rw [Nat.cast_sub hp.two_le] at hpow
  set h : ℕ := g ^ (d.n - 2) % d.n with hh
  have hpow : Primes.powerMod g ((d.n : ℤ) - 2) d.n = some (h : ℤ) := by
    rw [hh]; push_cast; exact hpow
  have hgh : (g : ZMod d.n) * h = 1 := by
    rw [hh, ZMod.natCast_mod]
    push_cast
    rw [← pow_succ', show d.n - 2 + 1 = d.n - 1 by omega, ← ho, pow_orderOf_eq_one]
  have hh0 : 0 < h := pow_mod_pos hg1 hgn _
  have hhn : h < d.n := Nat.mod_lt _ (by omega)
  dsimp only
  rw [hgen, Option.getD_some, hpow, Option.getD_some]
  generalize npadI.toNat = npad at *
  have hpk : PosK [((⟨npad, 1, 1⟩ : Dim), RKind.R2HC00)] := by simpa [PosK] using hpos
  have use : ∀ {nd : Bool} {g : Ptr → Ptr → State → State}, GOK rK [((⟨npad, 1, 1⟩ : Dim), RKind.R2HC00)] (some [⟨1, 0, 0⟩]) 0 0 true nd g →
      InBuf npad g fun u k => ∑ j ∈ range npad, rK .R2HC00 npad j k * u j := by
    intro nd g hG
    exact (hG.vec_congr (vec := some []) (by simp only [pairs, List.map_nil, List.map_cons]; simp [offs]; rfl)).rank1R.inBuf
  apply good_need
  · exact kosher_mkproblemRdft hpk (fun h => absurd rfl h)
  intro c1 h1
  obtain ⟨hG1, -⟩ := sound_mkproblemRdft hpk h1
  rw [decide_eq_true rfl] at hG1
  apply good_need
  · exact kosher_mkproblemRdft hpk (fun h => absurd rfl h)
  intro c2 h2
  obtain ⟨hG2, -⟩ := sound_mkproblemRdft hpk h2
  rw [decide_eq_true rfl] at hG2
  apply good_need
  · exact kosher_mkproblemRdft hpk (fun h => absurd rfl h)
  intro c3 h3
  obtain ⟨hG3, -⟩ := sound_mkproblemRdft hpk h3
  rw [decide_eq_true rfl] at hG3
  apply good_ret
  refine soundRdft (by simp [hv]) ?_
  rw [hsz, hv]
  exact GOK_rank1R ((dhtRaderApply_ok hn2 hnI hg1 hgn ho hh0 hhn hgh hpad he (fun k hk => dhtOmega_ok hc hn2 hnI hhn hpad (use hG3) hk) (use hG1) (use hG2) _ _).toR1 _ _)

end FFTW.RdftS
