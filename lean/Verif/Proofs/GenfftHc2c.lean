import Verif.Model.GenfftHc2c
import Verif.Spec.CodeletHc2c
import Verif.Proofs.GenfftHc2hc

namespace FFTW.Genfft
open Finset FFTW.Spec FFTW.Tensor FFTW.DftS FFTW.Rdft2S

/-- stores at pairs of places -/
theorem stores_loc {n : ℕ} {sto : ℕ → Ptr × Ptr} (h : ∀ c k c' k' : ℕ, c < 2 → k < n → c' < 2 → k' < n →
      (if c = 0 then (sto k).1 else (sto k).2) = (if c' = 0 then (sto k').1 else (sto k').2) → c = c' ∧ k = k') (X : Signal) (st : State) :
    let st' := forN n (fun k st => (st.set (sto k).1 (X k).re).set (sto k).2 (X k).im) st
    Frame st st' (fun q => ∃ k < n, q = (sto k).1 ∨ q = (sto k).2) ∧
    ∀ k < n, (⟨st'.mem (sto k).1, st'.mem (sto k).2⟩ : ℂ) = X k := by
  dsimp only
  set P : ℕ → Ptr := fun i => (if i % 2 = 0 then (sto (i / 2)).1 else (sto (i / 2)).2) with hP
  set A : ℕ → ℝ := fun i => if i % 2 = 0 then (X (i / 2)).re else (X (i / 2)).im with hA
  have hinj : ∀ k < 2 * n, ∀ k' < 2 * n, P k = P k' → k = k' := by
    intro k hk k' hk' e
    have := h (k % 2) (k / 2) (k' % 2) (k' / 2) (by omega) (by omega) (by omega) (by omega) e
    omega
  have e0 : ∀ k, P (2 * k) = (sto k).1 := by
    intro k; simp only [hP]; rw [if_pos (by omega), Nat.mul_div_cancel_left _ (by omega)]
  have e1 : ∀ k, P (2 * k + 1) = (sto k).2 := by
    intro k; simp only [hP]; rw [if_neg (by omega), show (2 * k + 1) / 2 = k by omega]
  have a0 : ∀ k, A (2 * k) = (X k).re := by
    intro k; simp only [hA]; rw [if_pos (by omega), Nat.mul_div_cancel_left _ (by omega)]
  have a1 : ∀ k, A (2 * k + 1) = (X k).im := by
    intro k; simp only [hA]; rw [if_neg (by omega), show (2 * k + 1) / 2 = k by omega]
  have key : FillP st.mem st.next (2 * n) P A (fun i => i < 2 * n) (forN n (fun k st => (st.set (sto k).1 (X k).re).set (sto k).2 (X k).im) st) := by
    refine FillP.loop (S := fun i j => j < 2 * i) ((FillP.start st (2 * n) P A).mono (by intro k _ h; omega)) ?_
    intro i hi s' hs
    refine ((hs.set hinj (k := 2 * i) (by omega) (e0 i).symm (a0 i).symm).set hinj (k := 2 * i + 1) (by omega) (e1 i).symm (a1 i).symm).mono ?_
    intro k _ hk
    show (k < 2 * i ∨ k = 2 * i) ∨ k = 2 * i + 1
    omega
  refine ⟨⟨key.next.ge, fun q _ hq => key.out q fun k hk e => hq ⟨k / 2, by omega, ?_⟩⟩, fun k hk => ?_⟩
  · rcases Nat.mod_two_eq_zero_or_one k with hm | hm
    · left; rw [e]; simp only [hP]; rw [if_pos hm]
    · right; rw [e]; simp only [hP]; rw [if_neg (by omega)]
  · apply Complex.ext
    · show _ = (X k).re
      rw [← e0, ← a0]; exact key.val _ (by omega) (by omega)
    · show _ = (X k).im
      rw [← e1, ← a1]; exact key.val _ (by omega) (by omega)

/-- which number of a column is at a place of a codelet: side, part, row -/
def ixri (i : ℕ) : (ℕ × ℕ × ℕ) × (ℕ × ℕ × ℕ) := ((0, i % 2, i / 2), (1, i % 2, i / 2))
def ixpm (n i : ℕ) : (ℕ × ℕ × ℕ) × (ℕ × ℕ × ℕ) := if 2 * i < n then ((0, 0, i), (0, 1, i)) else ((1, 0, n - 1 - i), (1, 1, n - 1 - i))
def ixr (i : ℕ) : (ℕ × ℕ × ℕ) × (ℕ × ℕ × ℕ) := ((i % 2, 0, i / 2), (i % 2, 1, i / 2))

/-- the places of a codelet, given by numbers of the column -/
def IxOk (n : ℕ) (ix : ℕ → (ℕ × ℕ × ℕ) × (ℕ × ℕ × ℕ)) : Prop :=
  (∀ k < n, ((ix k).1.1 < 2 ∧ (ix k).1.2.1 < 2 ∧ (ix k).1.2.2 < n / 2) ∧ ((ix k).2.1 < 2 ∧ (ix k).2.2.1 < 2 ∧ (ix k).2.2.2 < n / 2)) ∧
  ∀ c k c' k' : ℕ, c < 2 → k < n → c' < 2 → k' < n →
    (if c = 0 then (ix k).1 else (ix k).2) = (if c' = 0 then (ix k').1 else (ix k').2) → c = c' ∧ k = k'

theorem IxOk_ri {n : ℕ} (hn : n % 2 = 0) : IxOk n ixri := by
  refine ⟨fun k hk => ⟨⟨by simp [ixri], Nat.mod_lt _ (by omega), by simp only [ixri]; omega⟩, ⟨by simp [ixri], Nat.mod_lt _ (by omega), by simp only [ixri]; omega⟩⟩, ?_⟩
  intro c k c' k' hc hk hc' hk' e
  rcases (by omega : c = 0 ∨ c = 1) with rfl | rfl <;> rcases (by omega : c' = 0 ∨ c' = 1) with rfl | rfl <;>
    simp [ixri] at e ⊢ <;> omega

theorem IxOk_r {n : ℕ} (hn : n % 2 = 0) : IxOk n ixr := by
  refine ⟨fun k hk => ⟨⟨Nat.mod_lt _ (by omega), by simp [ixr], by simp only [ixr]; omega⟩, ⟨Nat.mod_lt _ (by omega), by simp [ixr], by simp only [ixr]; omega⟩⟩, ?_⟩
  intro c k c' k' hc hk hc' hk' e
  rcases (by omega : c = 0 ∨ c = 1) with rfl | rfl <;> rcases (by omega : c' = 0 ∨ c' = 1) with rfl | rfl <;>
    simp [ixr] at e ⊢ <;> omega

theorem IxOk_pm {n : ℕ} (hn : n % 2 = 0) : IxOk n (ixpm n) := by
  refine ⟨fun k hk => ?_, ?_⟩
  · unfold ixpm
    split
    · exact ⟨⟨by simp, by simp, by simp only; omega⟩, ⟨by simp, by simp, by simp only; omega⟩⟩
    · exact ⟨⟨by simp, by simp, by simp only; omega⟩, ⟨by simp, by simp, by simp only; omega⟩⟩
  · intro c k c' k' hc hk hc' hk' e
    unfold ixpm at e
    rcases (by omega : c = 0 ∨ c = 1) with rfl | rfl <;> rcases (by omega : c' = 0 ∨ c' = 1) with rfl | rfl <;>
      by_cases h1 : 2 * k < n <;> by_cases h2 : 2 * k' < n <;> simp [h1, h2] at e ⊢ <;> omega

/-- the numbers of a column at their places -/
noncomputable def colAt (ix : ℕ → (ℕ × ℕ × ℕ) × (ℕ × ℕ × ℕ)) (w : ℕ → ℕ → ℕ → ℝ) (k : ℕ) : ℂ :=
  ⟨w (ix k).1.1 (ix k).1.2.1 (ix k).1.2.2, w (ix k).2.1 (ix k).2.2.1 (ix k).2.2.2⟩

theorem colAt_ri (w : ℕ → ℕ → ℕ → ℝ) (b : ℕ) : colAt ixri w b = colRow .viaRdft w b := rfl

theorem colAt_pm {n : ℕ} (w : ℕ → ℕ → ℕ → ℝ) {t : ℕ} : colSpec n w t = if t < n - t then colAt (ixpm n) w t else conj (colAt (ixpm n) w t) := by
  unfold colSpec colAt ixpm
  have e : (t < n - t) ↔ 2 * t < n := by omega
  simp only [e]
  split
  · rfl
  · rw [conj_eq]; rfl

theorem colSpec_symC {n : ℕ} (w : ℕ → ℕ → ℕ → ℝ) {t : ℕ} {Y : Signal} (h : colAt (ixpm n) w t = symC n Y t) : colSpec n w t = Y t := by
  rw [colAt_pm, h]
  unfold symC
  split
  · rfl
  · rw [conj_eq, conj_eq, Complex.conj_conj]

theorem symC_colSpec {n : ℕ} (w : ℕ → ℕ → ℕ → ℝ) {t : ℕ} {x : Signal} (h : x t = colAt (ixpm n) w t) : symC n x t = colSpec n w t := by
  rw [colAt_pm]; unfold symC; rw [h]

theorem sym1C_row (w : ℕ → ℕ → ℕ → ℝ) {n b : ℕ} {x : Signal} (hn : n % 2 = 0) (hb : b < n) (h : ∀ j < n, x j = colAt ixr w j) :
    sym1C x b = 2 * colRow .viaDft w b := by
  unfold sym1C colRow
  rcases Nat.mod_two_eq_zero_or_one b with hm | hm
  · simp only [hm, if_true]
    rw [h b hb, h (b + 1) (by omega), conj_eq]
    unfold colAt ixr
    simp only [hm, show (b + 1) % 2 = 1 by omega, show (b + 1) / 2 = b / 2 by omega]
    ring
  · simp only [hm, show ¬ ((1 : ℕ) = 0) by omega, if_false]
    rw [h b hb, h (b - 1) (by omega), conj_eq]
    unfold colAt ixr
    simp only [hm, show (b - 1) % 2 = 0 by omega, show (b - 1) / 2 = b / 2 by omega]
    have := Complex.I_mul_I
    field_simp
    rw [Complex.I_sq]; ring

theorem sym1iC_row (w : ℕ → ℕ → ℕ → ℝ) {n b : ℕ} {Y : Signal} (hn : n % 2 = 0) (hb : b < n) (h : ∀ j < n, colAt ixr w j = sym1iC Y j) :
    colRow .viaDft w b = Y b := by
  have h0 := h (2 * (b / 2)) (by omega)
  have h1 := h (2 * (b / 2) + 1) (by omega)
  unfold sym1iC colAt ixr at h0 h1
  simp only [show 2 * (b / 2) % 2 = 0 by omega, show 2 * (b / 2) / 2 = b / 2 by omega, if_true] at h0
  simp only [show (2 * (b / 2) + 1) % 2 = 1 by omega, show (2 * (b / 2) + 1) / 2 = b / 2 by omega, show ¬ ((1 : ℕ) = 0) by omega, if_false,
    show 2 * (b / 2) + 1 - 1 = 2 * (b / 2) by omega] at h1
  unfold colRow
  simp only
  rw [h0, h1, conj_eq, Complex.conj_conj]
  have := Complex.I_ne_zero
  rcases Nat.mod_two_eq_zero_or_one b with hm | hm
  · rw [if_pos hm, show 2 * (b / 2) = b by omega]; ring
  · rw [if_neg (by omega), show 2 * (b / 2) + 1 = b by omega]; field_simp; ring

/-- the twiddled transforms of a column -/
theorem colDit {cexp : ℕ → ℤ → ℝ × ℝ} (hc : ExactCexp cexp) {mp : Magic} (hmp : mp.Ok) {P : Policy} {n : ℕ} {ex : ℕ → ℕ} (hP : P.Good n ex)
    {m l M : ℕ} (hl : l < M) (hm : M < m) (x : Signal) {t : ℕ} (ht : t < n) :
    dft mp (-1) n (P.bytwiddle n (-1) (twiddleArray (P.twidlen n) (fun i => (Twiddle.compute cexp ⟨(P.twdesc n).map fun p => { p with v := 1 }, 1⟩ (n * m) n M).getD i 0) l) x) t =
      ∑ b ∈ range n, ω (n * m) ^ (b * (t * m + (l + 1))) * x b := by
  have hu : conj (cis (n * m) ((l + 1 : ℕ) : ℤ)) * cis (n * m) ((l + 1 : ℕ) : ℤ) = 1 := by
    rw [conj_cis, ← cis_add]; simp
  have hb := hP.val _ hu _ (fun t ht => twiddleArray_hc hc hP hl hm ht)
  have hω : ∀ i : ℕ, conj (cis (n * m) ((l + 1 : ℕ) : ℤ)) ^ i = ω (n * m) ^ (i * (l + 1)) := by
    intro i
    rw [conj_cis, ← cis_pow, ω_cis]
    rw [Nat.cast_mul, mul_neg]
  have hsplit : ∀ a b : ℕ, ω n ^ (a * b) = ω (n * m) ^ (a * (b * m)) := by
    intro a b
    rw [mul_comm n m, show a * (b * m) = m * (a * b) by ring, ω_mul_pow _ _ _ (by omega)]
  rw [dft_ω hmp ht]
  refine sum_congr rfl fun j hj => ?_
  rw [hb (-1) _ _ (mem_range.1 hj)]
  simp only [show ¬ ((-1 : ℤ) = 1) by decide, if_false]
  rw [hω, ← mul_assoc, hsplit, ← pow_add]
  congr 2; ring

theorem colDif {cexp : ℕ → ℤ → ℝ × ℝ} (hc : ExactCexp cexp) {mp : Magic} (hmp : mp.Ok) {P : Policy} {n : ℕ} {ex : ℕ → ℕ} (hP : P.Good n ex)
    {m l M : ℕ} (hl : l < M) (hm : M < m) (x : Signal) {b : ℕ} (hb' : b < n) :
    P.bytwiddle n 1 (twiddleArray (P.twidlen n) (fun i => (Twiddle.compute cexp ⟨(P.twdesc n).map fun p => { p with v := 1 }, 1⟩ (n * m) n M).getD i 0) l) (dft mp 1 n x) b =
      ∑ t ∈ range n, (starRingEnd ℂ) (ω (n * m)) ^ (b * (t * m + (l + 1))) * x t := by
  have hu : conj (cis (n * m) ((l + 1 : ℕ) : ℤ)) * cis (n * m) ((l + 1 : ℕ) : ℤ) = 1 := by
    rw [conj_cis, ← cis_add]; simp
  have hb := hP.val _ hu _ (fun t ht => twiddleArray_hc hc hP hl hm ht)
  have hω : ∀ i : ℕ, conj (cis (n * m) ((l + 1 : ℕ) : ℤ)) ^ i = ω (n * m) ^ (i * (l + 1)) := by
    intro i
    rw [conj_cis, ← cis_pow, ω_cis]
    rw [Nat.cast_mul, mul_neg]
  have hω' : ∀ i : ℕ, cis (n * m) ((l + 1 : ℕ) : ℤ) ^ i = (starRingEnd ℂ) (ω (n * m)) ^ (i * (l + 1)) := by
    intro i
    rw [← map_pow, ← hω, ← conj_eq, conj_pow, conj_cis, conj_cis, neg_neg]
  have hsplit : ∀ a b : ℕ, ω n ^ (a * b) = ω (n * m) ^ (a * (b * m)) := by
    intro a b
    rw [mul_comm n m, show a * (b * m) = m * (a * b) by ring, ω_mul_pow _ _ _ (by omega)]
  rw [hb 1 _ _ hb', dft_ω_pos hmp hb']
  simp only [if_true]
  rw [hω', mul_sum]
  refine sum_congr rfl fun t ht => ?_
  rw [← mul_assoc]
  congr 1
  rw [show b * (t * m + (l + 1)) = b * (l + 1) + b * (t * m) by ring, pow_add, ← map_pow _ (ω (n * m)) (b * (t * m)), ← hsplit, map_pow, mul_comm t b]

/-- the places of the numbers of a column -/
def adLoc (ad : ℕ → ℕ → ℕ → Ptr) (ix : ℕ → (ℕ × ℕ × ℕ) × (ℕ × ℕ × ℕ)) (k : ℕ) : Ptr × Ptr :=
  (ad (ix k).1.1 (ix k).1.2.1 (ix k).1.2.2, ad (ix k).2.1 (ix k).2.2.1 (ix k).2.2.2)

theorem stepLoc_ok {n : ℕ} {ad : ℕ → ℕ → ℕ → Ptr}
    (hinj : ∀ s e q s' e' q' : ℕ, s < 2 → e < 2 → q < n / 2 → s' < 2 → e' < 2 → q' < n / 2 → ad s e q = ad s' e' q' → s = s' ∧ e = e' ∧ q = q')
    {il is : ℕ → (ℕ × ℕ × ℕ) × (ℕ × ℕ × ℕ)} (hs : IxOk n is) (alg : Signal → Signal) {ld sto : ℕ → Ptr × Ptr}
    (hld : ∀ k < n, ld k = adLoc ad il k) (hsto : ∀ k < n, sto k = adLoc ad is k) (st : State) :
    Frame st (stepLoc n alg ld sto st) (fun a => ∃ s e q : ℕ, s < 2 ∧ e < 2 ∧ q < n / 2 ∧ a = ad s e q) ∧
    ∃ x : Signal, (∀ j < n, x j = colAt il (fun s e q => st.mem (ad s e q)) j) ∧
      ∀ k < n, colAt is (fun s e q => (stepLoc n alg ld sto st).mem (ad s e q)) k = alg x k := by
  have key := stores_loc (n := n) (sto := sto) (fun c k c' k' hc hk hc' hk' e => by
    refine hs.2 c k c' k' hc hk hc' hk' ?_
    rw [hsto k hk, hsto k' hk'] at e
    obtain ⟨⟨a1, a2, a3⟩, ⟨b1, b2, b3⟩⟩ := hs.1 k hk
    obtain ⟨⟨c1, c2, c3⟩, ⟨d1, d2, d3⟩⟩ := hs.1 k' hk'
    unfold adLoc at e
    rcases (by omega : c = 0 ∨ c = 1) with rfl | rfl <;> rcases (by omega : c' = 0 ∨ c' = 1) with rfl | rfl <;>
      simp only [if_true, show ¬ ((1 : ℕ) = 0) by omega, if_false] at e ⊢
    · obtain ⟨e1, e2, e3⟩ := hinj _ _ _ _ _ _ a1 a2 a3 c1 c2 c3 e
      exact Prod.ext e1 (Prod.ext e2 e3)
    · obtain ⟨e1, e2, e3⟩ := hinj _ _ _ _ _ _ a1 a2 a3 d1 d2 d3 e
      exact Prod.ext e1 (Prod.ext e2 e3)
    · obtain ⟨e1, e2, e3⟩ := hinj _ _ _ _ _ _ b1 b2 b3 c1 c2 c3 e
      exact Prod.ext e1 (Prod.ext e2 e3)
    · obtain ⟨e1, e2, e3⟩ := hinj _ _ _ _ _ _ b1 b2 b3 d1 d2 d3 e
      exact Prod.ext e1 (Prod.ext e2 e3))
    (alg (array n fun j => ⟨st.mem (ld j).1, st.mem (ld j).2⟩)) st
  obtain ⟨h1, h2⟩ := key
  refine ⟨h1.mono fun a _ ⟨k, hk, h⟩ => ?_, (array n fun j => ⟨st.mem (ld j).1, st.mem (ld j).2⟩), fun j hj => ?_, fun k hk => ?_⟩
  · obtain ⟨⟨a1, a2, a3⟩, ⟨b1, b2, b3⟩⟩ := hs.1 k hk
    rw [hsto k hk] at h
    rcases h with rfl | rfl
    · exact ⟨_, _, _, a1, a2, a3, rfl⟩
    · exact ⟨_, _, _, b1, b2, b3, rfl⟩
  · rw [array_eq hj, hld j hj]; rfl
  · have := h2 k hk
    rw [hsto k hk] at this
    exact this

/-- a column transformed -/
def ColOk (via : Hc2cKind) (dit : Bool) (n m j : ℕ) (w w' : ℕ → ℕ → ℕ → ℝ) : Prop :=
  if dit then ∀ t < n, colSpec n w' t = ∑ b ∈ range n, ω (n * m) ^ (b * (t * m + j)) * colRow via w b
  else ∀ b < n, colRow via w' b = ∑ t ∈ range n, (starRingEnd ℂ) (ω (n * m)) ^ (b * (t * m + j)) * colSpec n w t

theorem colRow_congr {via : Hc2cKind} {n b : ℕ} (hn : n % 2 = 0) (hb : b < n) {w w' : ℕ → ℕ → ℕ → ℝ} (h : ∀ s e q, s < 2 → e < 2 → q < n / 2 → w s e q = w' s e q) :
    colRow via w b = colRow via w' b := by
  unfold colRow
  cases via
  · simp only [h 0 (b % 2) (b / 2) (by omega) (by omega) (by omega), h 1 (b % 2) (b / 2) (by omega) (by omega) (by omega)]
  · simp only [h 0 0 (b / 2) (by omega) (by omega) (by omega), h 0 1 (b / 2) (by omega) (by omega) (by omega),
      h 1 0 (b / 2) (by omega) (by omega) (by omega), h 1 1 (b / 2) (by omega) (by omega) (by omega)]

theorem colSpec_congr {n t : ℕ} (hn : n % 2 = 0) (ht : t < n) {w w' : ℕ → ℕ → ℕ → ℝ} (h : ∀ s e q, s < 2 → e < 2 → q < n / 2 → w s e q = w' s e q) :
    colSpec n w t = colSpec n w' t := by
  unfold colSpec
  split
  · rw [h 0 0 t (by omega) (by omega) (by omega), h 0 1 t (by omega) (by omega) (by omega)]
  · rw [h 1 0 _ (by omega) (by omega) (by omega), h 1 1 _ (by omega) (by omega) (by omega)]

theorem ColOk_congr {via : Hc2cKind} {dit : Bool} {n m j : ℕ} (hn : n % 2 = 0) {w1 w1' w2 w2' : ℕ → ℕ → ℕ → ℝ}
    (h1 : ∀ s e q, s < 2 → e < 2 → q < n / 2 → w1 s e q = w2 s e q) (h2 : ∀ s e q, s < 2 → e < 2 → q < n / 2 → w1' s e q = w2' s e q)
    (h : ColOk via dit n m j w1 w1') : ColOk via dit n m j w2 w2' := by
  unfold ColOk at h ⊢
  cases dit
  · simp only [Bool.false_eq_true, if_false] at h ⊢
    intro b hb
    rw [← colRow_congr hn hb h2, h b hb]
    exact sum_congr rfl fun t ht => by rw [colSpec_congr hn (mem_range.1 ht) h1]
  · simp only [if_true] at h ⊢
    intro t ht
    rw [← colSpec_congr hn ht h2, h t ht]
    exact sum_congr rfl fun b hb => by rw [colRow_congr hn (mem_range.1 hb) h1]

theorem hc2cStepC_ok {cexp : ℕ → ℤ → ℝ × ℝ} (hc : ExactCexp cexp) {mp : Magic} (hmp : mp.Ok) {P : Policy} {n : ℕ} (hn : n % 2 = 0) {ex : ℕ → ℕ} (hP : P.Good n ex)
    (via : Hc2cKind) (dit : Bool) {m l M : ℕ} (hl : l < M) (hm : M < m) {Rp Ip Rm Im : Ptr} {rs : ℤ} {ad : ℕ → ℕ → ℕ → Ptr}
    (had : ∀ s e q : ℕ, s < 2 → e < 2 → ad s e q = (if s = 0 then (if e = 0 then Rp else Ip) else (if e = 0 then Rm else Im)) + (q : ℤ) * rs)
    (hinj : ∀ s e q s' e' q' : ℕ, s < 2 → e < 2 → q < n / 2 → s' < 2 → e' < 2 → q' < n / 2 → ad s e q = ad s' e' q' → s = s' ∧ e = e' ∧ q = q') (st : State) :
    let st' := hc2cStepC mp P via dit n (twiddleArray (P.twidlen n) (fun i => (Twiddle.compute cexp ⟨(P.twdesc n).map fun p => { p with v := 1 }, 1⟩ (n * m) n M).getD i 0) l) Rp Ip Rm Im rs st
    Frame st st' (fun a => ∃ s e q : ℕ, s < 2 ∧ e < 2 ∧ q < n / 2 ∧ a = ad s e q) ∧
    ColOk via dit n m (l + 1) (fun s e q => st.mem (ad s e q)) (fun s e q => st'.mem (ad s e q)) := by
  have hri : ∀ k < n, locri Rp Ip Rm Im rs k = adLoc ad ixri k := by
    intro k _
    unfold locri adLoc ixri
    simp only
    rw [had 0 _ _ (by omega) (by omega), had 1 _ _ (by omega) (by omega)]
    rcases Nat.mod_two_eq_zero_or_one k with h | h
    · simp [h]
    · simp only [h, show (k - 1) / 2 = k / 2 by omega]; simp
  have hr : ∀ k < n, rloc Rp Ip Rm Im rs k = adLoc ad ixr k := by
    intro k _
    unfold rloc adLoc ixr
    simp only
    rw [had _ 0 _ (by omega) (by omega), had _ 1 _ (by omega) (by omega)]
    rcases Nat.mod_two_eq_zero_or_one k with h | h
    · simp [h]
    · simp only [h, show (k - 1) / 2 = k / 2 by omega]; simp
  have hpm : ∀ k < n, locpm n Rp Ip Rm Im rs k = adLoc ad (ixpm n) k := by
    intro k _
    unfold locpm adLoc ixpm
    have e : (k < n - k) ↔ 2 * k < n := by omega
    simp only [e]
    split
    · simp only; rw [had 0 0 _ (by omega) (by omega), had 0 1 _ (by omega) (by omega)]; simp
    · simp only; rw [had 1 0 _ (by omega) (by omega), had 1 1 _ (by omega) (by omega)]; simp
  unfold hc2cStepC ColOk
  cases via <;> cases dit <;> simp only [Bool.false_eq_true, if_false, if_true]
  · obtain ⟨h1, x, hx, h2⟩ := stepLoc_ok hinj (IxOk_ri hn) _ hpm hri st
    refine ⟨h1, fun b hb => ?_⟩
    rw [← colAt_ri, h2 b hb, colDif hc hmp hP hl hm _ hb]
    exact sum_congr rfl fun t ht => by rw [symC_colSpec _ (hx t (mem_range.1 ht))]
  · obtain ⟨h1, x, hx, h2⟩ := stepLoc_ok hinj (IxOk_pm hn) _ hri hpm st
    refine ⟨h1, fun t ht => ?_⟩
    rw [colSpec_symC _ (h2 t ht), colDit hc hmp hP hl hm _ ht]
    exact sum_congr rfl fun b hb => by rw [hx b (mem_range.1 hb), colAt_ri]
  · obtain ⟨h1, x, hx, h2⟩ := stepLoc_ok hinj (IxOk_r hn) _ hpm hr st
    refine ⟨h1, fun b hb => ?_⟩
    rw [sym1iC_row _ hn hb h2, colDif hc hmp hP hl hm _ hb]
    exact sum_congr rfl fun t ht => by rw [symC_colSpec _ (hx t (mem_range.1 ht))]
  · obtain ⟨h1, x, hx, h2⟩ := stepLoc_ok hinj (IxOk_pm hn) _ hr hpm st
    refine ⟨h1, fun t ht => ?_⟩
    rw [colSpec_symC _ (h2 t ht), colDit hc hmp hP hl hm _ ht, mul_sum]
    refine sum_congr rfl fun b hb => ?_
    rw [sym1C_row _ hn (mem_range.1 hb) hx]; ring

theorem hc2c_codelet_sound {cexp : ℕ → ℤ → ℝ × ℝ} (hc : ExactCexp cexp) (mp : Magic) (hmp : mp.Ok) (P : Policy) (n : ℕ) (hn : n % 2 = 0) (ex : ℕ → ℕ) (hP : P.Good n ex)
    (via : Hc2cKind) (dit : Bool) : (hc2cCodelet mp P via dit n).Sound via cexp where
  even := hn
  run := by
    intro m mb me rs ms Rp Ip Rm Im h0 h1 h2 hinj st b1 b2 b3 b4
    simp only [hc2cCodelet] at hinj ⊢
    set W : ℕ → ℝ := fun i => (Twiddle.compute cexp ⟨(P.twdesc n).map fun p => { p with v := 1 }, 1⟩ (n * m) n ((m - 1) / 2)).getD i 0 with hW
    set F : State → State := forN (me - mb) (fun i => hc2cStepC mp P via dit n (twiddleArray (P.twidlen n) W (mb - 1 + i))
        (Rp + (i : ℤ) * ms) (Ip + (i : ℤ) * ms) (Rm + (- (i : ℤ) * ms)) (Im + (- (i : ℤ) * ms)) rs) with hF
    set ad : ℕ → ℕ → ℕ → ℕ → Ptr := fun j s e q => h2At Rp Ip Rm Im rs ms mb j s e q with had
    show Frame st (F st) (fun a => ∃ j s e q : ℕ, mb ≤ j ∧ j < me ∧ s < 2 ∧ e < 2 ∧ q < n / 2 ∧ a = ad j s e q) ∧
      ∀ j : ℕ, mb ≤ j → j < me → ColOk via dit n m j (fun s e q => st.mem (ad j s e q)) (fun s e q => (F st).mem (ad j s e q))
    have hat : ∀ i s e q : ℕ, s < 2 → e < 2 → ad (mb + i) s e q =
        (if s = 0 then (if e = 0 then Rp + (i : ℤ) * ms else Ip + (i : ℤ) * ms) else (if e = 0 then Rm + (- (i : ℤ) * ms) else Im + (- (i : ℤ) * ms))) + (q : ℤ) * rs := by
      intro i s e q hs he
      simp only [had, h2At]
      rcases (by omega : s = 0 ∨ s = 1) with rfl | rfl <;> rcases (by omega : e = 0 ∨ e = 1) with rfl | rfl <;>
        simp only [if_true, show ¬ ((1 : ℕ) = 0) by omega, if_false] <;> rw [Ptr.add_add] <;> congr 1 <;> push_cast <;> ring
    have key := forN_local (N := me - mb) (st := st)
      (f := fun i st => hc2cStepC mp P via dit n (twiddleArray (P.twidlen n) W (mb - 1 + i))
        (Rp + (i : ℤ) * ms) (Ip + (i : ℤ) * ms) (Rm + (- (i : ℤ) * ms)) (Im + (- (i : ℤ) * ms)) rs st)
      (W := fun i a => ∃ s e q : ℕ, s < 2 ∧ e < 2 ∧ q < n / 2 ∧ a = ad (mb + i) s e q)
      (Q := fun i m1 m2 => ColOk via dit n m (mb + i) (fun s e q => m1 (ad (mb + i) s e q)) (fun s e q => m2 (ad (mb + i) s e q))) ?_ ?_ ?_ ?_
    · obtain ⟨f1, f2⟩ := key
      refine ⟨f1.mono fun a _ ⟨i, hi, s, e, q, hs, he, hq, ea⟩ => ⟨mb + i, s, e, q, by omega, by omega, hs, he, hq, ea⟩, fun j hj hj2 => ?_⟩
      have := f2 (j - mb) (by omega)
      rwa [show mb + (j - mb) = j by omega] at this
    · intro i hi st' _
      have := hc2cStepC_ok hc hmp hn hP via dit (m := m) (l := mb - 1 + i) (M := (m - 1) / 2) (by omega) (by omega)
        (hat i) (fun s e q s' e' q' hs he hq hs' he' hq' ee =>
          (hinj (mb + i) s e q (mb + i) s' e' q' (by omega) (by omega) hs he hq (by omega) (by omega) hs' he' hq' ee).2) st'
      rw [show mb - 1 + i + 1 = mb + i by omega] at this
      exact this
    · intro i hi m1 m2 m1' m2' q1 q2 hq
      refine ColOk_congr hn (fun s e q hs he hq => ?_) (fun s e q hs he hq => ?_) hq
      · exact q1 _ ⟨s, e, q, hs, he, hq, rfl⟩
      · exact q2 _ ⟨s, e, q, hs, he, hq, rfl⟩
    · rintro i hi j hj hij a ⟨s, e, q, hs, he, hq, rfl⟩ ⟨s', e', q', hs', he', hq', ee⟩
      have := hinj (mb + i) s e q (mb + j) s' e' q' (by omega) (by omega) hs he hq (by omega) (by omega) hs' he' hq' ee
      omega
    · rintro i hi a ⟨s, e, q, hs, he, hq, rfl⟩
      simp only [had, h2At]
      split <;> split <;> simpa

end FFTW.Genfft
