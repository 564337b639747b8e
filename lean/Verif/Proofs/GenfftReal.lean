import Verif.Model.GenfftReal
import Verif.Spec.CodeletR
import Verif.Proofs.GenfftCodelets
import Verif.Proofs.Rows

namespace FFTW.Genfft
open Finset FFTW.Spec FFTW.Tensor FFTW.DftS FFTW.RdftS Real

theorem evenOdd_eq (R0 R1 : Ptr) (rs : ℤ) (i : ℕ) : evenOdd R0 R1 rs i = realAt R0 R1 rs i := by
  unfold evenOdd realAt
  split
  · rfl
  · rw [show (i - 1) / 2 = i / 2 by omega]

/-! ### forward -/

theorem cisr (n : ℕ) (m : ℤ) (x : ℝ) : (cis n m * (⟨x, 0⟩ : ℂ)) = ⟨cos (2 * π * m / n) * x, sin (2 * π * m / n) * x⟩ := by
  rw [cis_eq]; apply Complex.ext <;> simp

theorem sum_re (n : ℕ) (f : ℕ → ℂ) : (∑ j ∈ range n, f j).re = ∑ j ∈ range n, (f j).re := by simp
theorem sum_im (n : ℕ) (f : ℕ → ℂ) : (∑ j ∈ range n, f j).im = ∑ j ∈ range n, (f j).im := by simp

theorem rdft_eq {mp : Magic} (hmp : mp.Ok) {n k : ℕ} (hk : k < n) (x : ℕ → ℝ) :
    rdft mp (-1) n (array n fun i => ⟨x i, 0⟩) k =
      ⟨∑ j ∈ range n, cos (2 * π * j * k / n) * x j, - ∑ j ∈ range n, sin (2 * π * j * k / n) * x j⟩ := by
  unfold rdft
  rw [dft_ok mp hmp n (-1) (Or.inr rfl) _ k hk, dftSum]
  have : ∀ j ∈ range n, cis n (-1 * (j : ℤ) * k) * real (array n (fun i => (⟨x i, 0⟩ : ℂ)) j) = 
      ⟨cos (2 * π * j * k / n) * x j, - (sin (2 * π * j * k / n) * x j)⟩ := by
    intro j hj
    rw [array_eq (mem_range.1 hj), show real (⟨x j, 0⟩ : ℂ) = ⟨x j, 0⟩ from rfl, cisr,
      show 2 * π * ((-1 * (j : ℤ) * k : ℤ) : ℝ) / n = - (2 * π * j * k / n) by push_cast; ring, cos_neg, sin_neg]
    apply Complex.ext <;> simp
  rw [sum_congr rfl this]
  apply Complex.ext
  · rw [sum_re]
  · rw [sum_im, sum_neg_distrib]

theorem rdftII_g {mp : Magic} (hmp : mp.Ok) {n k : ℕ} (hk : k < n) (x : ℕ → ℝ) :
    dft mp (-1) (2 * n) (fun i => if i < n then array n (fun i => (⟨x i, 0⟩ : ℂ)) i else 0) (2 * k + 1) =
      ⟨∑ j ∈ range n, cos (2 * π * j * (k + 1 / 2) / n) * x j, - ∑ j ∈ range n, sin (2 * π * j * (k + 1 / 2) / n) * x j⟩ := by
  have hn : (n : ℝ) ≠ 0 := by exact_mod_cast (by omega : n ≠ 0)
  rw [dft_ok mp hmp (2 * n) (-1) (Or.inr rfl) _ (2 * k + 1) (by omega), dftSum, two_mul, sum_range_add,
    sum_eq_zero (f := fun j => cis (n + n) (-1 * ((n + j : ℕ) : ℤ) * ((2 * k + 1 : ℕ) : ℤ)) * _) (by
      intro j _; rw [if_neg (by omega), mul_zero]), add_zero]
  have : ∀ j ∈ range n, cis (n + n) (-1 * (j : ℤ) * (2 * k + 1 : ℕ)) * (if j < n then array n (fun i => (⟨x i, 0⟩ : ℂ)) j else 0) = 
      ⟨cos (2 * π * j * (k + 1 / 2) / n) * x j, - (sin (2 * π * j * (k + 1 / 2) / n) * x j)⟩ := by
    intro j hj
    rw [if_pos (mem_range.1 hj), array_eq (mem_range.1 hj), cisr,
      show 2 * π * ((-1 * (j : ℤ) * (2 * k + 1 : ℕ) : ℤ) : ℝ) / (n + n : ℕ) = - (2 * π * j * (k + 1 / 2) / n) by push_cast; field_simp; ring, cos_neg, sin_neg]
    apply Complex.ext <;> simp
  rw [sum_congr rfl this]
  apply Complex.ext
  · rw [sum_re]
  · rw [sum_im, sum_neg_distrib]

/-- what the forward transforms leave in element `k` -/
noncomputable def fwd (mp : Magic) (II : Bool) (n : ℕ) : Signal → Signal := if II then rdftII mp (-1) n else rdft mp (-1) n

theorem sin_half_n {n j k : ℕ} (h : 2 * k + 1 = n) : sin (2 * π * j * (k + 1 / 2) / n) = 0 := by
  have hn : (n : ℝ) ≠ 0 := by exact_mod_cast (by omega : n ≠ 0)
  have e : (k : ℝ) + 1 / 2 = n / 2 := by rw [← h]; push_cast; ring
  rw [e, show 2 * π * (j : ℝ) * (n / 2) / n = j * π by field_simp, sin_nat_mul_pi]

theorem elided_re {mp : Magic} {n k : ℕ} (x : Signal) (II : Bool) (h : zeroRe II n k = true) (hk : k ≤ n - k) : (fwd mp II n x k).re = 0 := by
  unfold zeroRe at h
  simp only [Bool.and_eq_true, decide_eq_true_eq] at h
  obtain ⟨rfl, h⟩ := h
  simp only [fwd, if_true, rdftII]
  rw [if_neg (by omega), if_neg (by omega)]; rfl

theorem elided_im {mp : Magic} (hmp : mp.Ok) {n k : ℕ} (x : ℕ → ℝ) (II : Bool) (h : zeroIm II n k = true) (hk : k < n - k) :
    (fwd mp II n (array n fun i => ⟨x i, 0⟩) k).im = 0 := by
  unfold zeroIm at h
  cases II
  · simp only [Bool.false_eq_true, if_false, decide_eq_true_eq] at h
    subst h
    simp only [fwd, Bool.false_eq_true, if_false]
    rw [rdft_eq hmp (by omega)]
    simp
  · simp only [if_true, decide_eq_true_eq] at h
    simp only [fwd, if_true, rdftII]
    rw [if_pos hk, rdftII_g hmp (by omega)]
    show - _ = (0 : ℝ)
    rw [sum_eq_zero, neg_zero]
    intro j _
    rw [sin_half_n h, zero_mul]

def kindF (II : Bool) : RKind := if II then .R2HC01 else .R2HC00

theorem fwd_slot {mp : Magic} (hmp : mp.Ok) (II : Bool) {n p : ℕ} (hp : p < n) (x : ℕ → ℝ) :
    ∑ j ∈ range n, rK (kindF II) n j p * x j =
      if 2 * p + freqShift (kindF II) ≤ n then (fwd mp II n (array n fun i => ⟨x i, 0⟩) p).re
      else (fwd mp II n (array n fun i => ⟨x i, 0⟩) (n - freqShift (kindF II) - p)).im := by
  cases II
  · show ∑ j ∈ range n, r2hcK 0 0 n j p * x j = if 2 * p + 0 ≤ n then _ else _
    simp only [r2hcK]
    split
    · rw [show fwd mp false n = rdft mp (-1) n from rfl, rdft_eq hmp hp]
      refine sum_congr rfl fun j _ => ?_
      congr 2; push_cast; ring
    · show _ = (fwd mp false n _ (n - 0 - p)).im
      rw [show fwd mp false n = rdft mp (-1) n from rfl, rdft_eq hmp (by omega), ← sum_neg_distrib]
      refine sum_congr rfl fun j _ => ?_
      rw [neg_mul]
      congr 3; push_cast; ring
  · show ∑ j ∈ range n, r2hcK 0 1 n j p * x j = if 2 * p + 1 ≤ n then _ else _
    simp only [r2hcK]
    split
    · simp only [fwd, if_true, rdftII]
      rw [if_pos (by omega), rdftII_g hmp hp]
      refine sum_congr rfl fun j _ => ?_
      congr 2; push_cast; ring
    · show _ = (fwd mp true n _ (n - 1 - p)).im
      simp only [fwd, if_true, rdftII]
      rw [if_pos (by omega), rdftII_g hmp (by omega), ← sum_neg_distrib]
      refine sum_congr rfl fun j _ => ?_
      rw [neg_mul]
      congr 3; push_cast; ring

theorem storeUnless_fill {m0 : Ptr → ℝ} {nx n : ℕ} {P : ℕ → Ptr} {A : ℕ → ℝ} {S : ℕ → Prop} {st : State} (h : FillP m0 nx n P A S st)
    (hs : ∀ k < n, ∀ k' < n, P k = P k' → k = k') (z : Bool) {k : ℕ} {p : Ptr} {v : ℝ} (hk : z = false → k < n) (hp : z = false → p = P k) (hv : z = false → v = A k) :
    FillP m0 nx n P A (fun j => S j ∨ z = false ∧ j = k) (storeUnless z p v st) := by
  unfold storeUnless
  cases z
  · simpa using h.set hs (hk rfl) (hp rfl) (hv rfl)
  · simpa using h

theorem r2cf_one {mp : Magic} (hmp : mp.Ok) (II : Bool) (n : ℕ) (R0 R1 Cr Ci : Ptr) (rs csr csi : ℤ) (st : State)
    (hinj : ∀ k < n, ∀ k' < n, hcAt n (freqShift (kindF II)) Cr Ci csr csi k = hcAt n (freqShift (kindF II)) Cr Ci csr csi k' → k = k') :
    Computes (kindF II) n (realAt R0 R1 rs) (hcAt n (freqShift (kindF II)) Cr Ci csr csi) st (r2cfStep mp II n R0 R1 Cr Ci rs csr csi st) := by
  set B := hcAt n (freqShift (kindF II)) Cr Ci csr csi with hB
  set x : ℕ → ℝ := fun j => st.mem (realAt R0 R1 rs j) with hx
  have hX : (if II then rdftII mp (-1) else rdft mp (-1)) n (loadR n (evenOdd R0 R1 rs) st) = fwd mp II n (array n fun i => ⟨x i, 0⟩) := by
    unfold fwd loadR
    simp only [evenOdd_eq, hx]
    cases II <;> rfl
  unfold r2cfStep
  simp only [hX]
  set X := fwd mp II n (array n fun i => ⟨x i, 0⟩)
  set A : ℕ → ℝ := fun k => ∑ j ∈ range n, rK (kindF II) n j k * x j with hA
  have hsh : freqShift (kindF II) = if II then 1 else 0 := by cases II <;> rfl
  have f0 := FillP.start st n B A
  have key : FillP st.mem st.next n B A (fun k => k < n ∧ (2 * k + freqShift (kindF II) ≤ n ∧ k < n ∨ n < 2 * k + freqShift (kindF II) ∧ n - freqShift (kindF II) - k < n))
      (storeHc n (zeroRe II n) (zeroIm II n) Cr Ci csr csi X st) := by
    unfold storeHc
    refine FillP.loop (S := fun i k => k < n ∧ (2 * k + freqShift (kindF II) ≤ n ∧ k < i ∨ n < 2 * k + freqShift (kindF II) ∧ n - freqShift (kindF II) - k < i))
      (f0.mono (by intro k hk h; omega)) ?_
    intro i hi s hs
    have re1 : ∀ z : Bool, zeroRe II n i = z → i ≤ n - i → z = false → 2 * i + freqShift (kindF II) ≤ n := by
      rintro z rfl h hz
      rw [hsh]; unfold zeroRe at hz
      cases II <;> simp at hz ⊢ <;> omega
    have im1 : ∀ z : Bool, zeroIm II n i = z → i < n - i → z = false → 2 * i + freqShift (kindF II) < n ∧ 0 < 2 * i + freqShift (kindF II) := by
      rintro z rfl h hz
      rw [hsh]; unfold zeroIm at hz
      cases II <;> simp at hz ⊢ <;> omega
    have hR : ∀ s : State, ∀ S, FillP st.mem st.next n B A S s → i ≤ n - i →
        FillP st.mem st.next n B A (fun j => S j ∨ zeroRe II n i = false ∧ j = i) (storeUnless (zeroRe II n i) (Cr + (i : ℤ) * csr) (X i).re s) := by
      intro s S hs h
      refine storeUnless_fill hs hinj _ (fun _ => hi) ?_ ?_
      · intro hz
        rw [hB, hcAt, if_pos (re1 _ rfl h hz)]
      · intro hz
        rw [hA]; dsimp only
        rw [fwd_slot hmp II hi, if_pos (re1 _ rfl h hz)]
    split
    · rename_i h
      have g1 := hR s _ hs (by omega)
      have g2 := storeUnless_fill (k := n - freqShift (kindF II) - i) (p := Ci + (i : ℤ) * csi) (v := (X i).im) g1 hinj (zeroIm II n i) (fun hz => by have := im1 _ rfl h hz; omega)
        (by
          intro hz
          have := im1 _ rfl h hz
          rw [hB, hcAt, if_neg (by omega), show n - freqShift (kindF II) - (n - freqShift (kindF II) - i) = i by omega])
        (by
          intro hz
          have := im1 _ rfl h hz
          rw [hA]; dsimp only
          rw [fwd_slot hmp II (by omega), if_neg (by omega), show n - freqShift (kindF II) - (n - freqShift (kindF II) - i) = i by omega])
      refine g2.mono ?_
      rintro k hk ⟨_, h1 | h1⟩
      · by_cases e : k = i
        · subst e
          left; right; refine ⟨?_, rfl⟩
          unfold zeroRe
          rw [hsh] at h1
          cases II <;> simp at h1 ⊢; omega
        · left; left; exact ⟨hk, Or.inl ⟨h1.1, by omega⟩⟩
      · by_cases e : n - freqShift (kindF II) - k = i
        · have hs1 : freqShift (kindF II) ≤ 1 := by rw [hsh]; split <;> omega
          right; refine ⟨?_, by omega⟩
          unfold zeroIm
          rw [hsh] at h1 e
          cases II <;> simp at h1 e ⊢ <;> omega
        · left; left; exact ⟨hk, Or.inr ⟨h1.1, by omega⟩⟩
    · split
      · rename_i h1 h2
        refine hs.mono ?_
        rintro k hk ⟨_, h3 | h3⟩
        · exact ⟨hk, Or.inl ⟨h3.1, by omega⟩⟩
        · exact ⟨hk, Or.inr ⟨h3.1, by omega⟩⟩
      · rename_i h1 h2
        refine (hR s _ hs (by omega)).mono ?_
        rintro k hk ⟨_, h3 | h3⟩
        · by_cases e : k = i
          · subst e
            right; refine ⟨?_, rfl⟩
            unfold zeroRe
            rw [hsh] at h3
            cases II <;> simp at h3 ⊢; omega
          · left; exact ⟨hk, Or.inl ⟨h3.1, by omega⟩⟩
        · left; exact ⟨hk, Or.inr ⟨h3.1, by omega⟩⟩
  refine ⟨key.next, key.out, fun k hk => ?_⟩
  rw [key.val k hk ⟨hk, by omega⟩]

theorem r2cf_sound (mp : Magic) (hmp : mp.Ok) (II : Bool) (n : ℕ) : (r2cf mp II n).Sound where
  kinds := by cases II <;> simp [r2cf]
  loop := by
    intro R0 R1 Cr Ci rs csr csi vl ivs ovs st
    have : r2hcKindp (r2cf mp II n).kind = true := by cases II <;> rfl
    rw [this]
    simp [r2cf, forN, iter, Ptr.add_zero]
  one := by
    intro R0 R1 Cr Ci rs csr csi st
    have : r2hcKindp (r2cf mp II n).kind = true := by cases II <;> rfl
    dsimp only
    rw [if_pos this]
    intro h
    have e : (r2cf mp II n).k R0 R1 Cr Ci rs csr csi 1 0 0 st = r2cfStep mp II n R0 R1 Cr Ci rs csr csi st := by
      simp [r2cf, forN, iter, Ptr.add_zero]
    rw [e]
    exact r2cf_one hmp II n R0 R1 Cr Ci rs csr csi st h

/-! ### backward -/

theorem sum_reflect {n a : ℕ} (ha : a = 0 ∨ a = 1) (f : ℕ → ℝ) : ∑ j ∈ range n, f (if 2 * j + a = 0 then j else n - a - j) = ∑ j ∈ range n, f j := by
  refine Finset.sum_nbij' (fun j => if 2 * j + a = 0 then j else n - a - j) (fun j => if 2 * j + a = 0 then j else n - a - j) ?_ ?_ ?_ ?_ ?_
  · intro j hj; simp only [mem_range] at hj ⊢; split <;> omega
  · intro j hj; simp only [mem_range] at hj ⊢; split <;> omega
  · intro j hj; simp only [mem_range] at hj ⊢; split_ifs <;> omega
  · intro j hj; simp only [mem_range] at hj ⊢; split_ifs <;> omega
  · intro j hj; rfl

/-- real and imaginary parts of the whole spectrum, from halfcomplex data -/
def spRe (n a : ℕ) (X : ℕ → ℝ) (j : ℕ) : ℝ := if 2 * j + a ≤ n then X j else X (n - a - j)
def spIm (n a : ℕ) (X : ℕ → ℝ) (j : ℕ) : ℝ := if 2 * j + a = 0 ∨ 2 * j + a = n then 0 else if 2 * j + a < n then X (n - a - j) else - X j

theorem spRe_lo {n a j : ℕ} (X : ℕ → ℝ) (h : 2 * j + a ≤ n) : spRe n a X j = X j := if_pos h
theorem spRe_hi {n a j : ℕ} (X : ℕ → ℝ) (h : n < 2 * j + a) : spRe n a X j = X (n - a - j) := if_neg (by omega)
theorem spIm_z {n a j : ℕ} (X : ℕ → ℝ) (h : 2 * j + a = 0 ∨ 2 * j + a = n) : spIm n a X j = 0 := if_pos h
theorem spIm_lo {n a j : ℕ} (X : ℕ → ℝ) (h0 : 0 < 2 * j + a) (h : 2 * j + a < n) : spIm n a X j = X (n - a - j) := by
  rw [spIm, if_neg (by omega), if_pos h]
theorem spIm_hi {n a j : ℕ} (X : ℕ → ℝ) (h : n < 2 * j + a) : spIm n a X j = - X j := by
  rw [spIm, if_neg (by omega), if_neg (by omega)]
theorem hcAt_lo {n a p : ℕ} (Cr Ci : Ptr) (csr csi : ℤ) (h : 2 * p + a ≤ n) : hcAt n a Cr Ci csr csi p = Cr + (p : ℤ) * csr := if_pos h
theorem hcAt_hi {n a p : ℕ} (Cr Ci : Ptr) (csr csi : ℤ) (h : n < 2 * p + a) : hcAt n a Cr Ci csr csi p = Ci + ((n - a - p : ℕ) : ℤ) * csi := if_neg (by omega)

theorem herm_sum {n a : ℕ} (ha : a = 0 ∨ a = 1) (k : ℕ) (X : ℕ → ℝ) :
    ∑ j ∈ range n, (cos (2 * π * (j + a / 2) * k / n) * spRe n a X j - sin (2 * π * (j + a / 2) * k / n) * spIm n a X j) =
      ∑ p ∈ range n, hc2rK a 0 n p k * X p := by
  set C : ℕ → ℝ := fun j => cos (2 * π * (j + a / 2) * k / n)
  set S : ℕ → ℝ := fun j => sin (2 * π * (j + a / 2) * k / n)
  set f : ℕ → ℝ := fun j => C j * spRe n a X j - S j * spIm n a X j
  set g : ℕ → ℝ := fun p => hc2rK a 0 n p k * X p
  have hang : ∀ j < n, 0 < 2 * j + a → 2 * π * (((n - a - j : ℕ) : ℝ) + a / 2) * k / n = k * (2 * π) - 2 * π * (j + a / 2) * k / n := by
    intro j hj h0
    have hn : (n : ℝ) ≠ 0 := by exact_mod_cast (by omega : n ≠ 0)
    rw [Nat.sub_sub, Nat.cast_sub (by omega)]
    push_cast; field_simp; ring
  have hC : ∀ j < n, 0 < 2 * j + a → C (n - a - j) = C j := by
    intro j hj h0
    show cos _ = cos _
    rw [hang j hj h0, cos_nat_mul_two_pi_sub]
  have hS : ∀ j < n, 0 < 2 * j + a → S (n - a - j) = - S j := by
    intro j hj h0
    show sin _ = - sin _
    rw [hang j hj h0, sin_nat_mul_two_pi_sub]
  have hlo : ∀ j < n, 2 * j + a ≤ n → hc2rK a 0 n j k = (if 2 * j + a = 0 ∨ 2 * j + a = n then 1 else 2) * C j := by
    intro j hj h
    rw [hc2rK, if_pos h]
    show _ * cos _ = _ * cos _
    congr 3; push_cast; ring
  have hhi : ∀ j < n, n < 2 * j + a → hc2rK a 0 n j k = 2 * S j := by
    intro j hj h
    rw [hc2rK, if_neg (by omega)]
    have := hS j hj (by omega)
    show - (2 * sin _) = 2 * S j
    rw [← neg_inj, neg_neg, ← mul_neg, ← this]
    show 2 * sin _ = 2 * sin _
    congr 3; push_cast; ring
  have pt : ∀ j < n, f j + f (if 2 * j + a = 0 then j else n - a - j) = g j + g (if 2 * j + a = 0 then j else n - a - j) := by
    have low : ∀ j < n, 2 * j + a < n → 0 < 2 * j + a → f j + f (n - a - j) = g j + g (n - a - j) := by
      intro j hj h h0
      simp only [f, g]
      rw [hlo j hj h.le, hhi (n - a - j) (by omega) (by omega), hC j hj h0, hS j hj h0, spRe_lo X h.le, spIm_lo X h0 h, spRe_hi X (by omega), spIm_hi X (by omega),
        if_neg (by omega), show n - a - (n - a - j) = j by omega]
      ring
    intro j hj
    by_cases h0 : 2 * j + a = 0
    · rw [if_pos h0]
      simp only [f, g]
      rw [hlo j hj (by omega), spRe_lo X (by omega), spIm_z X (Or.inl h0), if_pos (Or.inl h0)]
      ring
    · rw [if_neg h0]
      rcases lt_trichotomy (2 * j + a) n with h | h | h
      · exact low j hj h (by omega)
      · rw [show n - a - j = j by omega]
        simp only [f, g]
        rw [hlo j hj (by omega), spRe_lo X (by omega), spIm_z X (Or.inr h), if_pos (Or.inr h)]
        ring
      · have := low (n - a - j) (by omega) (by omega) (by omega)
        rw [show n - a - (n - a - j) = j by omega] at this
        linarith
  have e1 := sum_reflect (n := n) ha f
  have e2 := sum_reflect (n := n) ha g
  have e3 : ∑ j ∈ range n, f j + ∑ j ∈ range n, f (if 2 * j + a = 0 then j else n - a - j) =
      ∑ j ∈ range n, g j + ∑ j ∈ range n, g (if 2 * j + a = 0 then j else n - a - j) := by
    rw [← sum_add_distrib, ← sum_add_distrib]
    exact sum_congr rfl fun j hj => pt j (mem_range.1 hj)
  rw [e1, e2] at e3
  show ∑ j ∈ range n, f j = ∑ j ∈ range n, g j
  linarith

theorem cis_re (n : ℕ) (m : ℤ) (z : ℂ) : (cis n m * z).re = cos (2 * π * m / n) * z.re - sin (2 * π * m / n) * z.im := by
  rw [cis_eq]; simp

/-- the slots of a halfcomplex array -/
def slots (n a : ℕ) (Cr Ci : Ptr) (csr csi : ℤ) (st : State) (p : ℕ) : ℝ := st.mem (hcAt n a Cr Ci csr csi p)

theorem hdft_eq {mp : Magic} (hmp : mp.Ok) {n k : ℕ} (hk : k < n) (Cr Ci : Ptr) (csr csi : ℤ) (st : State) :
    (hdft mp 1 n (loadHc n Cr Ci csr csi st) k).re = ∑ p ∈ range n, hc2rK 0 0 n p k * slots n 0 Cr Ci csr csi st p := by
  rw [← herm_sum (Or.inl rfl), hdft, dft_ok mp hmp n 1 (Or.inl rfl) _ k hk, dftSum, sum_re]
  refine sum_congr rfl fun j hj => ?_
  have hj := mem_range.1 hj
  rw [cis_re]
  have ang : 2 * π * ((1 * (j : ℤ) * k : ℤ) : ℝ) / n = 2 * π * (j + ((0 : ℕ) : ℝ) / 2) * k / n := by push_cast; ring
  rw [ang]
  have h : hermitian n (loadHc n Cr Ci csr csi st) j = ⟨spRe n 0 (slots n 0 Cr Ci csr csi st) j, spIm n 0 (slots n 0 Cr Ci csr csi st) j⟩ := by
    unfold hermitian
    rw [array_eq hj]
    unfold loadHc slots
    by_cases h0 : j = 0
    · subst h0
      rw [if_pos rfl, array_eq (by omega), spRe_lo _ (by omega), spIm_z _ (by omega), hcAt_lo _ _ _ _ (by omega), if_pos (by omega)]
      rfl
    · rw [if_neg h0]
      rcases lt_trichotomy (2 * j) n with h | h | h
      · rw [if_pos (by omega), array_eq hj, if_pos (by omega), spRe_lo _ (by omega), spIm_lo _ (by omega) (by omega), hcAt_lo _ _ _ _ (by omega), hcAt_hi _ _ _ _ (by omega),
          show n - 0 - (n - 0 - j) = j by omega]
      · rw [if_neg (by omega), if_neg (by omega), array_eq hj, if_neg (by omega), if_neg (by omega), spRe_lo _ (by omega), spIm_z _ (by omega), hcAt_lo _ _ _ _ (by omega)]
        rfl
      · rw [if_neg (by omega), if_pos (by omega), array_eq (by omega), if_pos (by omega), spRe_hi _ (by omega), spIm_hi _ (by omega), hcAt_lo _ _ _ _ (by omega), hcAt_hi _ _ _ _ (by omega)]
        simp only [conj, Nat.sub_zero]
  rw [h]

theorem sum_odd (n : ℕ) (f : ℕ → ℂ) (h : ∀ j, j % 2 = 0 → f j = 0) : ∑ j ∈ range (2 * n), f j = ∑ j ∈ range n, f (2 * j + 1) := by
  induction n with
  | zero => simp
  | succ n ih => rw [show 2 * (n + 1) = 2 * n + 1 + 1 by ring, sum_range_succ, sum_range_succ, ih, sum_range_succ, h (2 * n) (by omega), add_zero]

theorem hcdftIII_eq {mp : Magic} (hmp : mp.Ok) {n k : ℕ} (hk : k < n) (Cr Ci : Ptr) (csr csi : ℤ) (st : State) :
    (hcdftIII mp 1 n (loadHc n Cr Ci csr csi st) k).re = ∑ p ∈ range n, hc2rK 1 0 n p k * slots n 1 Cr Ci csr csi st p := by
  have hn : (n : ℝ) ≠ 0 := by exact_mod_cast (by omega : n ≠ 0)
  rw [← herm_sum (Or.inr rfl), hcdftIII]
  dsimp only
  rw [dft_ok mp hmp (2 * n) 1 (Or.inl rfl) _ k (by omega), dftSum, sum_odd _ _ (fun j hj => by rw [if_pos hj, mul_zero]), sum_re]
  refine sum_congr rfl fun j hj => ?_
  have hj := mem_range.1 hj
  rw [cis_re, if_neg (by omega)]
  have ang : 2 * π * ((1 * ((2 * j + 1 : ℕ) : ℤ) * k : ℤ) : ℝ) / (2 * n : ℕ) = 2 * π * (j + ((1 : ℕ) : ℝ) / 2) * k / n := by push_cast; field_simp
  rw [ang, show (2 * j + 1 - 1) / 2 = j by omega]
  have h : (if 2 * j < n - 1 then loadHc n Cr Ci csr csi st j
      else if 2 * j = n - 1 then real (loadHc n Cr Ci csr csi st j)
      else conj (loadHc n Cr Ci csr csi st (n - 1 - j))) = ⟨spRe n 1 (slots n 1 Cr Ci csr csi st) j, spIm n 1 (slots n 1 Cr Ci csr csi st) j⟩ := by
    unfold loadHc slots
    rcases lt_trichotomy (2 * j) (n - 1) with h | h | h
    · rw [if_pos h, array_eq hj, if_pos (by omega), spRe_lo _ (by omega), spIm_lo _ (by omega) (by omega), hcAt_lo _ _ _ _ (by omega), hcAt_hi _ _ _ _ (by omega),
        show n - 1 - (n - 1 - j) = j by omega]
    · rw [if_neg (by omega), if_pos h, array_eq hj, if_pos (by omega), spRe_lo _ (by omega), spIm_z _ (by omega), hcAt_lo]
      rfl
      omega
    · rw [if_neg (by omega), if_neg (by omega), array_eq (by omega), if_pos (by omega), spRe_hi _ (by omega), spIm_hi _ (by omega), hcAt_lo _ _ _ _ (by omega), hcAt_hi _ _ _ _ (by omega)]
      simp only [conj]
  rw [h]

def kindB (III : Bool) : RKind := if III then .HC2R10 else .HC2R00

theorem r2cb_one {mp : Magic} (hmp : mp.Ok) (III : Bool) (n : ℕ) (R0 R1 Cr Ci : Ptr) (rs csr csi : ℤ) (st : State)
    (hinj : ∀ k < n, ∀ k' < n, realAt R0 R1 rs k = realAt R0 R1 rs k' → k = k') :
    Computes (kindB III) n (hcAt n (freqShift (kindB III)) Cr Ci csr csi) (realAt R0 R1 rs) st (r2cbStep mp III n R0 R1 Cr Ci rs csr csi st) := by
  have f : FillP st.mem st.next n (realAt R0 R1 rs)
      (fun k => ∑ j ∈ range n, rK (kindB III) n j k * st.mem (hcAt n (freqShift (kindB III)) Cr Ci csr csi j)) (fun k => k < n)
      (r2cbStep mp III n R0 R1 Cr Ci rs csr csi st) := by
    unfold r2cbStep storeR
    dsimp only
    refine FillP.loop (S := fun i k => k < i) ((FillP.start st n _ _).mono (by intro k _ h; omega)) ?_
    intro i hi s hs
    refine (hs.set hinj hi (evenOdd_eq R0 R1 rs i) ?_).mono (by intro k _ h; omega)
    cases III
    · exact hdft_eq hmp hi Cr Ci csr csi st
    · exact hcdftIII_eq hmp hi Cr Ci csr csi st
  exact ⟨f.next, f.out, fun k hk => f.val k hk hk⟩

theorem r2cb_sound (mp : Magic) (hmp : mp.Ok) (III : Bool) (n : ℕ) : (r2cb mp III n).Sound where
  kinds := by cases III <;> simp [r2cb]
  loop := by
    intro R0 R1 Cr Ci rs csr csi vl ivs ovs st
    have : r2hcKindp (r2cb mp III n).kind = false := by cases III <;> rfl
    rw [this]
    simp [r2cb, forN, iter, Ptr.add_zero]
  one := by
    intro R0 R1 Cr Ci rs csr csi st
    have : ¬ r2hcKindp (r2cb mp III n).kind = true := by simp [show r2hcKindp (r2cb mp III n).kind = false by cases III <;> rfl]
    dsimp only
    rw [if_neg this]
    intro h
    have e : (r2cb mp III n).k R0 R1 Cr Ci rs csr csi 1 0 0 st = r2cbStep mp III n R0 R1 Cr Ci rs csr csi st := by
      simp [r2cb, forN, iter, Ptr.add_zero]
    rw [e]
    exact r2cb_one hmp III n R0 R1 Cr Ci rs csr csi st h

end FFTW.Genfft
