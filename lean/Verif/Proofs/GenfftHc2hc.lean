import Verif.Model.GenfftHc2hc
import Verif.Spec.CodeletHc
import Verif.Proofs.GenfftPolicy
import Verif.Proofs.GenfftReal
import Verif.Proofs.HcMath
import Verif.Proofs.Hc2hcDirect

namespace FFTW.Genfft
open Finset FFTW.Spec FFTW.Tensor FFTW.DftS FFTW.RdftS

theorem dft_ω_pos {mp : Magic} (hmp : mp.Ok) {n k : ℕ} (hk : k < n) (x : Signal) :
    dft mp 1 n x k = ∑ j ∈ range n, (starRingEnd ℂ) (ω n) ^ (j * k) * x j := by
  rw [dft_ok mp hmp n 1 (Or.inl rfl) _ k hk, dftSum]
  refine sum_congr rfl fun j _ => ?_
  rw [← map_pow, ω_cis, ← conj_eq, conj_cis]
  congr 2; push_cast; ring

/-- the table of a codelet whose first column is column 1 -/
theorem twiddleArray_hc {cexp : ℕ → ℤ → ℝ × ℝ} (hc : ExactCexp cexp) {P : Policy} {n : ℕ} {ex : ℕ → ℕ} (hP : P.Good n ex) {m l M : ℕ} (hl : l < M) (hm : M < m)
    {t : ℕ} (ht : t < P.twidlen n / 2) :
    twiddleArray (P.twidlen n) (fun i => (Twiddle.compute cexp ⟨(P.twdesc n).map fun p => { p with v := 1 }, 1⟩ (n * m) n M).getD i 0) l t = cis (n * m) ((l + 1 : ℕ) : ℤ) ^ ex t := by
  have hlt : (l + 1) * ex t < n * m := by
    have := hP.le t ht
    calc (l + 1) * ex t ≤ m * ex t := Nat.mul_le_mul_right _ (by omega)
      _ < m * n := Nat.mul_lt_mul_of_pos_left this (by omega)
      _ = n * m := mul_comm _ _
  have htab : ∀ i : ℕ, ((P.twdesc n).map fun p => ({ p with v := 1 } : Twiddle.Instr)).flatMap (Twiddle.emit cexp (n * m) n ((i * 1 : ℕ) : ℤ)) =
      (List.range (P.twidlen n / 2)).flatMap fun t => [(cexp (n * m) (((i + 1) * ex t : ℕ) : ℤ)).1, (cexp (n * m) (((i + 1) * ex t : ℕ) : ℤ)).2] := by
    intro i
    rw [← hP.table cexp (n * m) (i + 1), List.flatMap_map]
    refine List.flatMap_congr fun p hp => ?_
    have h0 := hP.origin p hp
    unfold Twiddle.emit
    rw [h0]
    have e : (((i * 1 : ℕ) : ℤ) + 1) = ((i + 1 : ℕ) : ℤ) + 0 := by push_cast; ring
    cases hop : p.op <;> simp only [e]
  have hlen : ∀ i : ℕ, (((P.twdesc n).map fun p => ({ p with v := 1 } : Twiddle.Instr)).flatMap (Twiddle.emit cexp (n * m) n ((i * 1 : ℕ) : ℤ))).length = P.twidlen n := by
    intro i
    rw [htab, List.length_flatMap]
    simp only [List.length_cons, List.length_nil, List.map_const', List.length_range, List.sum_replicate, smul_eq_mul]
    exact hP.even
  have key : ∀ j < 2, (Twiddle.compute cexp ⟨(P.twdesc n).map fun p => { p with v := 1 }, 1⟩ (n * m) n M).getD (P.twidlen n * l + (2 * t + j)) 0 =
      [(cexp (n * m) (((l + 1) * ex t : ℕ) : ℤ)).1, (cexp (n * m) (((l + 1) * ex t : ℕ) : ℤ)).2].getD j 0 := by
    intro j hj
    have := hP.even
    unfold Twiddle.compute
    dsimp only
    rw [show (M + 1 - 1) / 1 = M by simp, show P.twidlen n * l + (2 * t + j) = l * P.twidlen n + (t * 2 + j) by ring,
      getD_flatMap_range _ (P.twidlen n) hlen _ _ _ _ (by omega) (by omega), htab,
      getD_flatMap_range (fun t => [(cexp (n * m) (((l + 1) * ex t : ℕ) : ℤ)).1, (cexp (n * m) (((l + 1) * ex t : ℕ) : ℤ)).2]) 2 (fun _ => rfl) 0 _ t j ht hj]
  unfold twiddleArray
  rw [array_eq ht]
  beta_reduce
  rw [key 1 (by omega), show P.twidlen n * l + 2 * t = P.twidlen n * l + (2 * t + 0) by rfl, key 0 (by omega)]
  rw [← cis_pow, show ((ex t : ℕ) : ℤ) * ((l + 1 : ℕ) : ℤ) = (((l + 1) * ex t : ℕ) : ℤ) by push_cast; ring, ← cis_exact hc hlt]
  rfl

theorem sym1_eq (n : ℕ) (f : Signal) (i : ℕ) : sym1 n f i = ⟨(f i).re, (f (n - 1 - i)).im⟩ := by
  unfold sym1 byi real imag
  apply Complex.ext <;> simp

theorem hc2hcAlg_ok {cexp : ℕ → ℤ → ℝ × ℝ} (hc : ExactCexp cexp) {mp : Magic} (hmp : mp.Ok) {P : Policy} {n : ℕ} {ex : ℕ → ℕ} (hP : P.Good n ex) (dit : Bool)
    {m l M : ℕ} (hl : l < M) (hm : M < m) (x : Signal) {k : ℕ} (hk : k < n) :
    hc2hcAlg mp P dit n (twiddleArray (P.twidlen n) (fun i => (Twiddle.compute cexp ⟨(P.twdesc n).map fun p => { p with v := 1 }, 1⟩ (n * m) n M).getD i 0) l) x k =
      hcColumn dit n m (l + 1) x k := by
  have hu : conj (cis (n * m) ((l + 1 : ℕ) : ℤ)) * cis (n * m) ((l + 1 : ℕ) : ℤ) = 1 := by
    rw [conj_cis, ← cis_add]; simp
  have hb := hP.val _ hu _ (fun t ht => twiddleArray_hc hc hP hl hm ht)
  have hn : n ≠ 0 := by omega
  have hmm : m ≠ 0 := by omega
  have hω : ∀ i : ℕ, conj (cis (n * m) ((l + 1 : ℕ) : ℤ)) ^ i = ω (n * m) ^ (i * (l + 1)) := by
    intro i
    rw [conj_cis, ← cis_pow, ω_cis]
    rw [Nat.cast_mul, mul_neg]
  have hω' : ∀ i : ℕ, cis (n * m) ((l + 1 : ℕ) : ℤ) ^ i = (starRingEnd ℂ) (ω (n * m)) ^ (i * (l + 1)) := by
    intro i
    rw [← map_pow, ← hω, ← conj_eq, conj_pow, conj_cis, conj_cis, neg_neg]
  have hsplit : ∀ a b : ℕ, ω n ^ (a * b) = ω (n * m) ^ (a * (b * m)) := by
    intro a b
    rw [mul_comm n m, show a * (b * m) = m * (a * b) by ring, ω_mul_pow _ _ _ hmm]
  unfold hc2hcAlg hcColumn
  cases dit
  · simp only [Bool.false_eq_true, if_false]
    rw [hb 1 _ _ hk, dft_ω_pos hmp hk]
    simp only [if_true]
    rw [hω', mul_sum]
    refine sum_congr rfl fun t ht => ?_
    have ht := mem_range.1 ht
    rw [← mul_assoc]
    congr 1
    · rw [show k * (t * m + (l + 1)) = k * (l + 1) + k * (t * m) by ring, pow_add, ← map_pow _ (ω (n * m)) (k * (t * m)), ← hsplit, map_pow, mul_comm t k]
    · unfold sym2i byui
      have e : (t < n - t) ↔ 2 * t < n := by omega
      simp only [sym1_eq, e]
      split
      · rfl
      · apply Complex.ext <;> simp
  · simp only [if_true]
    have hX : ∀ t < n, dft mp (-1) n (P.bytwiddle n (-1) (twiddleArray (P.twidlen n) (fun i => (Twiddle.compute cexp ⟨(P.twdesc n).map fun p => { p with v := 1 }, 1⟩ (n * m) n M).getD i 0) l) x) t =
        ∑ j ∈ range n, ω (n * m) ^ (j * (t * m + (l + 1))) * x j := by
      intro t ht
      rw [dft_ω hmp ht]
      refine sum_congr rfl fun j hj => ?_
      rw [hb (-1) _ _ (mem_range.1 hj)]
      simp only [show ¬ ((-1 : ℤ) = 1) by decide, if_false]
      rw [hω, ← mul_assoc, hsplit, ← pow_add]
      congr 2; ring
    rw [sym1_eq]
    unfold sym2 byi
    rw [hX k hk, hX (n - 1 - k) (by omega)]
    have e : (k < n - k) ↔ 2 * k < n := by omega
    have e2 : (n - 1 - k < n - (n - 1 - k)) ↔ 2 * (n - 1 - k) < n := by omega
    simp only [e, e2]
    generalize ∑ j ∈ range n, ω (n * m) ^ (j * (k * m + (l + 1))) * x j = A
    generalize ∑ j ∈ range n, ω (n * m) ^ (j * ((n - 1 - k) * m + (l + 1))) * x j = B
    apply Complex.ext
    · dsimp only
      split <;> simp
    · dsimp only
      split <;> simp

/-- the stores of one iteration, wherever real and imaginary parts are -/
theorem stores2 {R I : Ptr} {s : ℤ} {n : ℕ} (h : ∀ c k c' k' : ℕ, c < 2 → k < n → c' < 2 → k' < n →
      (if c = 0 then R else I) + (k : ℤ) * s = (if c' = 0 then R else I) + (k' : ℤ) * s → c = c' ∧ k = k') (X : Signal) (st : State) :
    let st' := forN n (fun k st => (st.set (R + (k : ℤ) * s) (X k).re).set (I + (k : ℤ) * s) (X k).im) st
    Frame st st' (fun q => ∃ c k : ℕ, c < 2 ∧ k < n ∧ q = (if c = 0 then R else I) + (k : ℤ) * s) ∧
    ∀ k < n, st'.mem (R + (k : ℤ) * s) = (X k).re ∧ st'.mem (I + (k : ℤ) * s) = (X k).im := by
  dsimp only
  set P : ℕ → Ptr := fun i => (if i % 2 = 0 then R else I) + ((i / 2 : ℕ) : ℤ) * s with hP
  set A : ℕ → ℝ := fun i => if i % 2 = 0 then (X (i / 2)).re else (X (i / 2)).im with hA
  have hinj : ∀ k < 2 * n, ∀ k' < 2 * n, P k = P k' → k = k' := by
    intro k hk k' hk' e
    have := h (k % 2) (k / 2) (k' % 2) (k' / 2) (by omega) (by omega) (by omega) (by omega) e
    omega
  have e0 : ∀ k, P (2 * k) = R + (k : ℤ) * s := by
    intro k; simp only [hP]; rw [if_pos (by omega), Nat.mul_div_cancel_left _ (by omega)]
  have e1 : ∀ k, P (2 * k + 1) = I + (k : ℤ) * s := by
    intro k; simp only [hP]; rw [if_neg (by omega), show (2 * k + 1) / 2 = k by omega]
  have a0 : ∀ k, A (2 * k) = (X k).re := by
    intro k; simp only [hA]; rw [if_pos (by omega), Nat.mul_div_cancel_left _ (by omega)]
  have a1 : ∀ k, A (2 * k + 1) = (X k).im := by
    intro k; simp only [hA]; rw [if_neg (by omega), show (2 * k + 1) / 2 = k by omega]
  have key : FillP st.mem st.next (2 * n) P A (fun i => i < 2 * n) (forN n (fun k st => (st.set (R + (k : ℤ) * s) (X k).re).set (I + (k : ℤ) * s) (X k).im) st) := by
    refine FillP.loop (S := fun i j => j < 2 * i) ((FillP.start st (2 * n) P A).mono (by intro k _ h; omega)) ?_
    intro i hi s' hs
    refine ((hs.set hinj (k := 2 * i) (by omega) (e0 i).symm (a0 i).symm).set hinj (k := 2 * i + 1) (by omega) (e1 i).symm (a1 i).symm).mono ?_
    intro k _ hk
    show (k < 2 * i ∨ k = 2 * i) ∨ k = 2 * i + 1
    omega
  refine ⟨⟨key.next.ge, fun q _ hq => key.out q fun k hk e => hq ⟨k % 2, k / 2, by omega, by omega, e⟩⟩, fun k hk => ⟨?_, ?_⟩⟩
  · rw [← e0, ← a0]; exact key.val _ (by omega) (by omega)
  · rw [← e1, ← a1]; exact key.val _ (by omega) (by omega)

theorem hc2hc_codelet_sound {cexp : ℕ → ℤ → ℝ × ℝ} (hc : ExactCexp cexp) (mp : Magic) (hmp : mp.Ok) (P : Policy) (n : ℕ) (ex : ℕ → ℕ) (hP : P.Good n ex) (dit : Bool) :
    (hc2hcCodelet mp P dit n).Sound cexp := by
  intro m mb me rs ms cr ci h0 h1 h2 hinj st hcr hci
  simp only [hc2hcCodelet] at hinj ⊢
  set W : ℕ → ℝ := fun i => (Twiddle.compute cexp ⟨(P.twdesc n).map fun p => { p with v := 1 }, 1⟩ (n * m) n ((m - 1) / 2)).getD i 0 with hW
  show Frame st (forN (me - mb) (fun i st => codeletStep n (hc2hcAlg mp P dit n (twiddleArray (P.twidlen n) W (mb - 1 + i)))
    (cr + (i : ℤ) * ms) (ci + (- (i : ℤ) * ms)) (cr + (i : ℤ) * ms) (ci + (- (i : ℤ) * ms)) rs rs st) st) _ ∧ _
  have a0 : ∀ i k : ℕ, cr + (i : ℤ) * ms + (k : ℤ) * rs = hcAt2 cr ci rs ms mb 0 (mb + i) k := by
    intro i k; simp only [hcAt2, if_true]; rw [Ptr.add_add]; congr 1; push_cast; ring
  have a1 : ∀ i k : ℕ, ci + (- (i : ℤ) * ms) + (k : ℤ) * rs = hcAt2 cr ci rs ms mb 1 (mb + i) k := by
    intro i k; simp only [hcAt2]; rw [if_neg (by omega), Ptr.add_add]; congr 1; push_cast; ring
  have ac : ∀ c i k : ℕ, c < 2 → (if c = 0 then cr + (i : ℤ) * ms else ci + (- (i : ℤ) * ms)) + (k : ℤ) * rs = hcAt2 cr ci rs ms mb c (mb + i) k := by
    intro c i k hc'
    rcases (by omega : c = 0 ∨ c = 1) with rfl | rfl
    · rw [if_pos rfl, a0]
    · rw [if_neg (by omega), a1]
  have key := forN_local (N := me - mb) (st := st)
    (f := fun i st => codeletStep n (hc2hcAlg mp P dit n (twiddleArray (P.twidlen n) W (mb - 1 + i)))
      (cr + (i : ℤ) * ms) (ci + (- (i : ℤ) * ms)) (cr + (i : ℤ) * ms) (ci + (- (i : ℤ) * ms)) rs rs st)
    (W := fun i q => ∃ c k : ℕ, c < 2 ∧ k < n ∧ q = hcAt2 cr ci rs ms mb c (mb + i) k)
    (Q := fun i m1 m2 => ∀ k < n, (⟨m2 (hcAt2 cr ci rs ms mb 0 (mb + i) k), m2 (hcAt2 cr ci rs ms mb 1 (mb + i) k)⟩ : ℂ) =
      hcColumn dit n m (mb + i) (fun k => ⟨m1 (hcAt2 cr ci rs ms mb 0 (mb + i) k), m1 (hcAt2 cr ci rs ms mb 1 (mb + i) k)⟩) k) ?_ ?_ ?_ ?_
  · obtain ⟨f1, f2⟩ := key
    refine ⟨f1.mono fun q _ ⟨i, hi, c, k, hc', hk, e⟩ => ⟨c, mb + i, k, hc', by omega, by omega, hk, e⟩, fun j k hj hj2 hk => ?_⟩
    have := f2 (j - mb) (by omega) k hk
    rwa [show mb + (j - mb) = j by omega] at this
  · intro i hi st' _
    unfold codeletStep
    dsimp only
    obtain ⟨g1, g2⟩ := stores2 (R := cr + (i : ℤ) * ms) (I := ci + (- (i : ℤ) * ms)) (s := rs) (n := n) (by
      intro c k c' k' hc1 hk hc2 hk' e
      rw [ac _ _ _ hc1, ac _ _ _ hc2] at e
      have := hinj c (mb + i) k c' (mb + i) k' hc1 (by omega) (by omega) hk hc2 (by omega) (by omega) hk' e
      exact ⟨this.1, this.2.2⟩)
      (hc2hcAlg mp P dit n (twiddleArray (P.twidlen n) W (mb - 1 + i)) (array n fun j => ⟨st'.mem (cr + (i : ℤ) * ms + (j : ℤ) * rs), st'.mem (ci + (- (i : ℤ) * ms) + (j : ℤ) * rs)⟩)) st'
    refine ⟨g1.mono fun q _ ⟨c, k, hc', hk, e⟩ => ⟨c, k, hc', hk, by rw [e, ac _ _ _ hc']⟩, fun k hk => ?_⟩
    rw [← a0, ← a1, (g2 k hk).1, (g2 k hk).2]
    show hc2hcAlg mp P dit n (twiddleArray (P.twidlen n) W (mb - 1 + i)) _ k = _
    rw [hW, hc2hcAlg_ok hc hmp hP dit (by omega) (by omega) _ hk, show mb - 1 + i + 1 = mb + i by omega]
    refine hcColumn_congr hk fun j hj => ?_
    rw [array_eq hj, a0, a1]
  · intro i hi m1 m2 m1' m2' q1 q2 hq k hk
    rw [← q2 _ ⟨0, k, by omega, hk, rfl⟩, ← q2 _ ⟨1, k, by omega, hk, rfl⟩, hq k hk]
    refine hcColumn_congr hk fun j hj => ?_
    rw [q1 _ ⟨0, j, by omega, hj, rfl⟩, q1 _ ⟨1, j, by omega, hj, rfl⟩]
  · rintro i hi j hj hij q ⟨c, k, hc1, hk, rfl⟩ ⟨c', k', hc2, hk', e⟩
    have := hinj c (mb + i) k c' (mb + j) k' hc1 (by omega) (by omega) hk hc2 (by omega) (by omega) hk' e
    omega
  · rintro i hi q ⟨c, k, hc1, hk, rfl⟩
    unfold hcAt2
    split <;> simpa

end FFTW.Genfft
