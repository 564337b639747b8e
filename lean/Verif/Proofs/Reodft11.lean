import Verif.Proofs.Reodft
import Verif.Proofs.ReodftMath2

/-!
# reodft/reodft11e-radix2.c and reodft/reodft11e-r2hc-odd.c compute REDFT11 and RODFT11
-/

namespace FFTW.Reodft
open Tensor DftS RdftS Spec Finset Real

variable [CLib]

section
variable {n : ℕ} {is os : ℤ} {W : ℕ → ℝ}

omit [CLib] in
theorem a11_lo {x : ℕ → ℝ} {i : ℕ} (h : i < n / 2) : a11 n x i = a01 (n / 2) (e11 x) i := by rw [a11, if_pos h]
omit [CLib] in
theorem a11_hi {x : ℕ → ℝ} {i : ℕ} : a11 n x (n / 2 + i) = a01 (n / 2) (f11 n x) i := by rw [a11, if_neg (by omega), Nat.add_sub_cancel_left]

omit [CLib] in
theorem re11Pre_fill (hn : 0 < n) (he : n % 2 = 0)
    (hW : ∀ i < n / 4 + 1, W (2 * i) = cos (π * i / (2 * ((n / 2 : ℕ) : ℝ))) ∧ W (2 * i + 1) = sin (π * i / (2 * ((n / 2 : ℕ) : ℝ))))
    (I B : Ptr) (st : State) (hIB : I.blk ≠ B.blk) :
    Fill st.mem st.next B 1 n (a11 n fun j => st.mem (I + (j : ℤ) * is)) (fun _ => True) (re11Pre W n is I B st) := by
  unfold re11Pre
  dsimp only
  set x : ℕ → ℝ := fun j => st.mem (I + (j : ℤ) * is) with hx
  have f0 := (Fill.start st B 1 n (a11 n x)).set (one_RInj _) (k := 0) (by omega) (p := B) (by simp [ptr_add_zero]) (v := 2 * st.mem I) (by
    rw [a11_lo (by omega)]; simp [a01, e11, hx, ptr_add_zero])
  have f1 := f0.set (one_RInj _) (k := n / 2) (by omega) (p := B + ((n / 2 : ℕ) : ℤ)) (by simp) (v := 2 * (st.set B (2 * st.mem I)).mem (I + ((n - 1 : ℕ) : ℤ) * is)) (by
    rw [f0.get' hIB, show a11 n x (n / 2) = a11 n x (n / 2 + 0) by rfl, a11_hi]; simp [a01, f11, hx])
  generalize hst : forN _ _ _ = st1
  have f2 : Fill st.mem st.next B 1 n (a11 n x) (fun k => k ≤ (n / 2 - 1) / 2 ∨ (n / 2 - (n / 2 - 1) / 2 ≤ k ∧ k ≤ n / 2 + (n / 2 - 1) / 2) ∨ n - (n / 2 - 1) / 2 ≤ k) st1 := by
    rw [← hst]
    refine Fill.loop (S := fun i k => k ≤ i ∨ (n / 2 - i ≤ k ∧ k ≤ n / 2 + i) ∨ n - i ≤ k) (f1.mono (by intro k hk h; omega)) ?_
    intro i hi s hs
    rw [hs.get' hIB, hs.get' hIB, hs.get' hIB, hs.get' hIB, (hW (i + 1) (by omega)).1, (hW (i + 1) (by omega)).2]
    have e1 : e11 x (i + 1) = x (i + 1 + (i + 1) - 1) + x (i + 1 + (i + 1)) := by rw [e11, if_neg (by omega)]; congr 2 <;> omega
    have e2 : e11 x (n / 2 - (i + 1)) = x (n - (i + 1 + (i + 1)) - 1) + x (n - (i + 1 + (i + 1))) := by rw [e11, if_neg (by omega)]; congr 2 <;> omega
    have e3 : f11 n x (i + 1) = x (n - (i + 1 + (i + 1)) - 1) - x (n - (i + 1 + (i + 1))) := by rw [f11, if_neg (by omega)]; congr 2 <;> omega
    have e4 : f11 n x (n / 2 - (i + 1)) = x (i + 1 + (i + 1) - 1) - x (i + 1 + (i + 1)) := by rw [f11, if_neg (by omega)]; congr 2 <;> omega
    refine ((((hs.set (one_RInj _) (k := i + 1) (by omega) (by simp) ?_).set (one_RInj _) (k := n / 2 - (i + 1)) (by omega) (by simp) ?_).set (one_RInj _) (k := n / 2 + (i + 1)) (by omega) (by simp) ?_).set (one_RInj _) (k := n - (i + 1)) (by omega) (by simp) ?_).mono ?_
    · rw [a11_lo (by omega), a01, if_neg (by omega), e1, e2]
    · rw [a11_lo (by omega), a01_hi (by omega) (by omega), e1, e2]
    · rw [a11_hi, a01, if_neg (by omega), e3, e4]
    · rw [show n - (i + 1) = n / 2 + (n / 2 - (i + 1)) by omega, a11_hi, a01_hi (by omega) (by omega), e3, e4]
    · intro k hk h; omega
  split_ifs with h
  · set i := (n / 2 - 1) / 2 + 1 with hi
    have e1 : e11 x i = x (n / 2 - 1) + x (n / 2) := by rw [e11, if_neg (by omega)]; congr 2 <;> omega
    have e2 : f11 n x i = x (n / 2 - 1) - x (n / 2) := by rw [f11, if_neg (by omega)]; congr 2 <;> omega
    have hq : cos (π * i / (2 * ((n / 2 : ℕ) : ℝ))) = sin (π * i / (2 * ((n / 2 : ℕ) : ℝ))) := pi_quarter (by omega) (by omega)
    rw [f2.get' hIB, f2.get' hIB, (hW i (by omega)).1]
    refine ((f2.set (one_RInj _) (k := i) (by omega) (by simp) ?_).set (one_RInj _) (k := n - i) (by omega) (by simp) ?_).mono ?_
    · rw [a11_lo (by omega), a01, if_neg (by omega), show n / 2 - i = i by omega, e1, ← hq]; ring
    · rw [show n - i = n / 2 + i by omega, a11_hi, a01, if_neg (by omega), show n / 2 - i = i by omega, e2, ← hq]; ring
    · intro k hk _; omega
  · refine f2.mono ?_
    intro k hk _; omega

omit [CLib] in
theorem ro11Pre_fill (hn : 0 < n) (he : n % 2 = 0)
    (hW : ∀ i < n / 4 + 1, W (2 * i) = cos (π * i / (2 * ((n / 2 : ℕ) : ℝ))) ∧ W (2 * i + 1) = sin (π * i / (2 * ((n / 2 : ℕ) : ℝ))))
    (I B : Ptr) (st : State) (hIB : I.blk ≠ B.blk) :
    Fill st.mem st.next B 1 n ((fun x => a11 n fun l => x (n - 1 - l)) fun j : ℕ => st.mem (I + (j : ℤ) * is)) (fun _ => True) (ro11Pre W n is I B st) := by
  unfold ro11Pre
  dsimp only
  set x : ℕ → ℝ := fun l => st.mem (I + ((n - 1 - l : ℕ) : ℤ) * is) with hx
  have hxr : ∀ l, l < n → st.mem (I + (l : ℤ) * is) = x (n - 1 - l) := by intro l hl; simp only [hx]; congr 4; omega
  have f0 := (Fill.start st B 1 n (a11 n x)).set (one_RInj _) (k := 0) (by omega) (p := B) (by simp [ptr_add_zero]) (v := 2 * st.mem (I + ((n - 1 : ℕ) : ℤ) * is)) (by
    rw [a11_lo (by omega)]; simp [a01, e11, hx])
  have f1 := f0.set (one_RInj _) (k := n / 2) (by omega) (p := B + ((n / 2 : ℕ) : ℤ)) (by simp) (v := 2 * (st.set B (2 * st.mem (I + ((n - 1 : ℕ) : ℤ) * is))).mem I) (by
    rw [f0.get hIB, show a11 n x (n / 2) = a11 n x (n / 2 + 0) by rfl, a11_hi]; simp [a01, f11, hx, ptr_add_zero])
  generalize hst : forN _ _ _ = st1
  have f2 : Fill st.mem st.next B 1 n (a11 n x) (fun k => k ≤ (n / 2 - 1) / 2 ∨ (n / 2 - (n / 2 - 1) / 2 ≤ k ∧ k ≤ n / 2 + (n / 2 - 1) / 2) ∨ n - (n / 2 - 1) / 2 ≤ k) st1 := by
    rw [← hst]
    refine Fill.loop (S := fun i k => k ≤ i ∨ (n / 2 - i ≤ k ∧ k ≤ n / 2 + i) ∨ n - i ≤ k) (f1.mono (by intro k hk h; omega)) ?_
    intro i hi s hs
    rw [hs.get' hIB, hs.get' hIB, hs.get' hIB, hs.get' hIB, (hW (i + 1) (by omega)).1, (hW (i + 1) (by omega)).2,
      hxr _ (by omega), hxr _ (by omega), hxr _ (by omega), hxr _ (by omega)]
    have e1 : e11 x (i + 1) = x (n - 1 - (n - (i + 1 + (i + 1)))) + x (n - 1 - (n - 1 - (i + 1 + (i + 1)))) := by rw [e11, if_neg (by omega)]; congr 2 <;> omega
    have e2 : e11 x (n / 2 - (i + 1)) = x (n - 1 - (i + 1 + (i + 1))) + x (n - 1 - (i + 1 + (i + 1) - 1)) := by rw [e11, if_neg (by omega)]; congr 2 <;> omega
    have e3 : f11 n x (i + 1) = x (n - 1 - (i + 1 + (i + 1))) - x (n - 1 - (i + 1 + (i + 1) - 1)) := by rw [f11, if_neg (by omega)]; congr 2 <;> omega
    have e4 : f11 n x (n / 2 - (i + 1)) = x (n - 1 - (n - (i + 1 + (i + 1)))) - x (n - 1 - (n - 1 - (i + 1 + (i + 1)))) := by rw [f11, if_neg (by omega)]; congr 2 <;> omega
    refine ((((hs.set (one_RInj _) (k := i + 1) (by omega) (by simp) ?_).set (one_RInj _) (k := n / 2 - (i + 1)) (by omega) (by simp) ?_).set (one_RInj _) (k := n / 2 + (i + 1)) (by omega) (by simp) ?_).set (one_RInj _) (k := n - (i + 1)) (by omega) (by simp) ?_).mono ?_
    · rw [a11_lo (by omega), a01, if_neg (by omega), e1, e2]
    · rw [a11_lo (by omega), a01_hi (by omega) (by omega), e1, e2]
    · rw [a11_hi, a01, if_neg (by omega), e3, e4]
    · rw [show n - (i + 1) = n / 2 + (n / 2 - (i + 1)) by omega, a11_hi, a01_hi (by omega) (by omega), e3, e4]
    · intro k hk h; omega
  split_ifs with h
  · set i := (n / 2 - 1) / 2 + 1 with hi
    have e1 : e11 x i = x (n - 1 - n / 2) + x (n - 1 - (n / 2 - 1)) := by rw [e11, if_neg (by omega)]; congr 2 <;> omega
    have e2 : f11 n x i = x (n - 1 - n / 2) - x (n - 1 - (n / 2 - 1)) := by rw [f11, if_neg (by omega)]; congr 2 <;> omega
    have hq : cos (π * i / (2 * ((n / 2 : ℕ) : ℝ))) = sin (π * i / (2 * ((n / 2 : ℕ) : ℝ))) := pi_quarter (by omega) (by omega)
    rw [f2.get' hIB, f2.get' hIB, (hW i (by omega)).1, hxr _ (by omega), hxr _ (by omega)]
    refine ((f2.set (one_RInj _) (k := i) (by omega) (by simp) ?_).set (one_RInj _) (k := n - i) (by omega) (by simp) ?_).mono ?_
    · rw [a11_lo (by omega), a01, if_neg (by omega), show n / 2 - i = i by omega, e1, ← hq]; ring
    · rw [show n - i = n / 2 + i by omega, a11_hi, a01, if_neg (by omega), show n / 2 - i = i by omega, e2, ← hq]; ring
    · intro k hk _; omega
  · refine f2.mono ?_
    intro k hk _; omega

omit [CLib] in
theorem neg1_odd {m : ℕ} (h : m % 2 = 1) : (-1 : ℝ) ^ m = -1 := Odd.neg_one_pow (Nat.odd_iff.2 h)
omit [CLib] in
theorem neg1_even {m : ℕ} (h : m % 2 = 0) : (-1 : ℝ) ^ m = 1 := Even.neg_one_pow (Nat.even_iff.2 h)

omit [CLib] in
theorem z01_zero (m : ℕ) (y : ℕ → ℝ) : z01 m y 0 = y 0 := by simp [z01]
omit [CLib] in
theorem z01_even {m i : ℕ} (y : ℕ → ℝ) (h : 0 < i) : z01 m y (2 * i) = y i + y (m - i) := by
  rw [z01, if_neg (by omega), if_pos (by omega), show 2 * i / 2 = i by omega]
omit [CLib] in
theorem z01_odd {m i : ℕ} (y : ℕ → ℝ) (h : 0 < i) (hm : 2 * i < m) : z01 m y (2 * i - 1) = y i - y (m - i) := by
  rw [z01, if_neg (by omega), if_neg (by omega), if_neg (by omega), show (2 * i - 1 + 1) / 2 = i by omega]
omit [CLib] in
theorem z01_last {m i : ℕ} (y : ℕ → ℝ) (h : 0 < i) (hm : 2 * i = m) : z01 m y (2 * i - 1) = y i := by
  rw [z01, if_neg (by omega), if_neg (by omega), if_pos (by omega), show (2 * i - 1 + 1) / 2 = i by omega]

omit [CLib] in
theorem z11_lo {y : ℕ → ℝ} {k : ℕ} (h : k < n / 2) : z11 n y k =
    cos (π * (k + 1 / 2) / (2 * n)) * z01 (n / 2) y k + (-1) ^ k * sin (π * (k + 1 / 2) / (2 * n)) * z01 (n / 2) (fun m => y (n / 2 + m)) k := by
  rw [z11, if_pos h]
omit [CLib] in
theorem z11_hi {y : ℕ → ℝ} {k : ℕ} (h : k < n / 2) (he : n % 2 = 0) : z11 n y (n - 1 - k) =
    sin (π * (k + 1 / 2) / (2 * n)) * z01 (n / 2) y k - (-1) ^ k * cos (π * (k + 1 / 2) / (2 * n)) * z01 (n / 2) (fun m => y (n / 2 + m)) k := by
  rw [z11, if_neg (by omega), show n - 1 - (n - 1 - k) = k by omega]

omit [CLib] in
theorem re11Post_fill (hn : 0 < n) (he : n % 2 = 0)
    (hW : ∀ k < n / 2, W (2 * k) = cos (π * (k + 1 / 2) / (2 * n)) ∧ W (2 * k + 1) = sin (π * (k + 1 / 2) / (2 * n)))
    (ho : RInj os n) (B O : Ptr) (st : State) (hIB : B.blk ≠ O.blk) :
    Fill st.mem st.next O os n (z11 n fun j => st.mem (B + (j : ℤ))) (fun _ => True) (re11Post W n os B O st) := by
  unfold re11Post
  dsimp only
  set y : ℕ → ℝ := fun j => st.mem (B + (j : ℤ)) with hy
  have y0 : st.mem B = y 0 := by simp [hy, ptr_add_zero]
  have hW0 := hW 0 (by omega)
  have hyd : ∀ j : ℕ, st.mem (B + (j : ℤ)) = y j := fun _ => rfl
  rw [show W 0 = W (2 * 0) from rfl, show W 1 = W (2 * 0 + 1) from rfl, hW0.1, hW0.2, y0, hyd]
  have f1 := ((Fill.start st O os n (z11 n y)).set ho (k := 0) (by omega) (p := O) (by simp [ptr_add_zero])
      (v := cos (π * (((0 : ℕ) : ℝ) + 1 / 2) / (2 * n)) * y 0 + sin (π * (((0 : ℕ) : ℝ) + 1 / 2) / (2 * n)) * y (n / 2)) (by
        rw [z11_lo (by omega), z01_zero, z01_zero]; simp)).set ho (k := n - 1) (by omega) (p := O + ((n - 1 : ℕ) : ℤ) * os) rfl
      (v := sin (π * (((0 : ℕ) : ℝ) + 1 / 2) / (2 * n)) * y 0 - cos (π * (((0 : ℕ) : ℝ) + 1 / 2) / (2 * n)) * y (n / 2)) (by
        rw [show n - 1 = n - 1 - 0 by omega, z11_hi (by omega) he, z01_zero, z01_zero]; simp)
  generalize hst : forN _ _ _ = st1
  have f2 : Fill st.mem st.next O os n (z11 n y) (fun k => k ≤ 2 * ((n / 2 - 1) / 2) ∨ n - 1 - 2 * ((n / 2 - 1) / 2) ≤ k) st1 := by
    rw [← hst]
    refine Fill.loop (S := fun i k => k ≤ 2 * i ∨ n - 1 - 2 * i ≤ k) (f1.mono (by intro k hk h; omega)) ?_
    intro i hi s hs
    rw [hs.get' hIB, hs.get' hIB, hs.get' hIB, hs.get' hIB, hyd, hyd, hyd, hyd]
    rw [show i + 1 + (i + 1) - 1 + 1 = 2 * (i + 1) by omega, show i + 1 + (i + 1) - 1 = 2 * (i + 1) - 1 by omega]
    rw [(hW (2 * (i + 1) - 1) (by omega)).1, (hW (2 * (i + 1) - 1) (by omega)).2, (hW (2 * (i + 1)) (by omega)).1, (hW (2 * (i + 1)) (by omega)).2]
    have hni : n / 2 + (n / 2 - (i + 1)) = n - (i + 1) := by omega
    refine ((((hs.set ho (k := 2 * (i + 1) - 1) (by omega) rfl ?_).set ho (k := n - 1 - (2 * (i + 1) - 1)) (by omega) rfl ?_).set ho (k := 2 * (i + 1)) (by omega) rfl ?_).set ho (k := n - 1 - 2 * (i + 1)) (by omega) rfl ?_).mono ?_
    · rw [z11_lo (by omega), z01_odd _ (by omega) (by omega), z01_odd _ (by omega) (by omega), hni, neg1_odd (by omega)]; ring
    · rw [z11_hi (by omega) he, z01_odd _ (by omega) (by omega), z01_odd _ (by omega) (by omega), hni, neg1_odd (by omega)]; ring
    · rw [z11_lo (by omega), z01_even _ (by omega), z01_even _ (by omega), hni, neg1_even (by omega)]; ring
    · rw [z11_hi (by omega) he, z01_even _ (by omega), z01_even _ (by omega), hni, neg1_even (by omega)]; ring
    · intro k hk h; omega
  split_ifs with h
  · set i := (n / 2 - 1) / 2 + 1 with hi
    rw [f2.get' hIB, f2.get' hIB, hyd, hyd, show i + i - 1 = 2 * i - 1 by omega, (hW (2 * i - 1) (by omega)).1, (hW (2 * i - 1) (by omega)).2]
    refine ((f2.set ho (k := 2 * i - 1) (by omega) rfl ?_).set ho (k := n - 1 - (2 * i - 1)) (by omega) rfl ?_).mono ?_
    · rw [z11_lo (by omega), z01_last _ (by omega) (by omega), z01_last _ (by omega) (by omega), neg1_odd (by omega)]; ring
    · rw [z11_hi (by omega) he, z01_last _ (by omega) (by omega), z01_last _ (by omega) (by omega), neg1_odd (by omega)]; ring
    · intro k hk _; omega
  · refine f2.mono ?_
    intro k hk _; omega

omit [CLib] in
theorem ro11Post_fill (hn : 0 < n) (he : n % 2 = 0)
    (hW : ∀ k < n / 2, W (2 * k) = cos (π * (k + 1 / 2) / (2 * n)) ∧ W (2 * k + 1) = sin (π * (k + 1 / 2) / (2 * n)))
    (ho : RInj os n) (B O : Ptr) (st : State) (hIB : B.blk ≠ O.blk) :
    Fill st.mem st.next O os n ((fun y k => (-1) ^ k * z11 n y k) fun j => st.mem (B + (j : ℤ))) (fun _ => True) (ro11Post W n os B O st) := by
  unfold ro11Post
  dsimp only
  set y : ℕ → ℝ := fun j => st.mem (B + (j : ℤ)) with hy
  set A : ℕ → ℝ := fun k => (-1) ^ k * z11 n y k with hA
  have y0 : st.mem B = y 0 := by simp [hy, ptr_add_zero]
  have hW0 := hW 0 (by omega)
  have hyd : ∀ j : ℕ, st.mem (B + (j : ℤ)) = y j := fun _ => rfl
  have Ae : ∀ k, k % 2 = 0 → A k = z11 n y k := by intro k hk; simp only [hA]; rw [neg1_even hk, one_mul]
  have Ao : ∀ k, k % 2 = 1 → A k = - z11 n y k := by intro k hk; simp only [hA]; rw [neg1_odd hk]; ring
  rw [show W 0 = W (2 * 0) from rfl, show W 1 = W (2 * 0 + 1) from rfl, hW0.1, hW0.2, y0, hyd]
  have f1 := ((Fill.start st O os n A).set ho (k := 0) (by omega) (p := O) (by simp [ptr_add_zero])
      (v := cos (π * (((0 : ℕ) : ℝ) + 1 / 2) / (2 * n)) * y 0 + sin (π * (((0 : ℕ) : ℝ) + 1 / 2) / (2 * n)) * y (n / 2)) (by
        rw [Ae 0 rfl, z11_lo (by omega), z01_zero, z01_zero]; simp)).set ho (k := n - 1) (by omega) (p := O + ((n - 1 : ℕ) : ℤ) * os) rfl
      (v := cos (π * (((0 : ℕ) : ℝ) + 1 / 2) / (2 * n)) * y (n / 2) - sin (π * (((0 : ℕ) : ℝ) + 1 / 2) / (2 * n)) * y 0) (by
        rw [Ao _ (by omega), show n - 1 = n - 1 - 0 by omega, z11_hi (by omega) he, z01_zero, z01_zero]; simp)
  generalize hst : forN _ _ _ = st1
  have f2 : Fill st.mem st.next O os n A (fun k => k ≤ 2 * ((n / 2 - 1) / 2) ∨ n - 1 - 2 * ((n / 2 - 1) / 2) ≤ k) st1 := by
    rw [← hst]
    refine Fill.loop (S := fun i k => k ≤ 2 * i ∨ n - 1 - 2 * i ≤ k) (f1.mono (by intro k hk h; omega)) ?_
    intro i hi s hs
    rw [hs.get' hIB, hs.get' hIB, hs.get' hIB, hs.get' hIB, hyd, hyd, hyd, hyd]
    rw [show i + 1 + (i + 1) - 1 + 1 = 2 * (i + 1) by omega, show i + 1 + (i + 1) - 1 = 2 * (i + 1) - 1 by omega]
    rw [(hW (2 * (i + 1) - 1) (by omega)).1, (hW (2 * (i + 1) - 1) (by omega)).2, (hW (2 * (i + 1)) (by omega)).1, (hW (2 * (i + 1)) (by omega)).2]
    have hni : n / 2 + (n / 2 - (i + 1)) = n - (i + 1) := by omega
    refine ((((hs.set ho (k := 2 * (i + 1) - 1) (by omega) rfl ?_).set ho (k := n - 1 - (2 * (i + 1) - 1)) (by omega) rfl ?_).set ho (k := 2 * (i + 1)) (by omega) rfl ?_).set ho (k := n - 1 - 2 * (i + 1)) (by omega) rfl ?_).mono ?_
    · rw [Ao _ (by omega), z11_lo (by omega), z01_odd _ (by omega) (by omega), z01_odd _ (by omega) (by omega), hni, neg1_odd (by omega)]; ring
    · rw [Ae _ (by omega), z11_hi (by omega) he, z01_odd _ (by omega) (by omega), z01_odd _ (by omega) (by omega), hni, neg1_odd (by omega)]; ring
    · rw [Ae _ (by omega), z11_lo (by omega), z01_even _ (by omega), z01_even _ (by omega), hni, neg1_even (by omega)]; ring
    · rw [Ao _ (by omega), z11_hi (by omega) he, z01_even _ (by omega), z01_even _ (by omega), hni, neg1_even (by omega)]; ring
    · intro k hk h; omega
  split_ifs with h
  · set i := (n / 2 - 1) / 2 + 1 with hi
    rw [f2.get' hIB, f2.get' hIB, hyd, hyd, show i + i - 1 = 2 * i - 1 by omega, (hW (2 * i - 1) (by omega)).1, (hW (2 * i - 1) (by omega)).2]
    refine ((f2.set ho (k := 2 * i - 1) (by omega) rfl ?_).set ho (k := n - 1 - (2 * i - 1)) (by omega) rfl ?_).mono ?_
    · rw [Ao _ (by omega), z11_lo (by omega), z01_last _ (by omega) (by omega), z01_last _ (by omega) (by omega), neg1_odd (by omega)]; ring
    · rw [Ae _ (by omega), z11_hi (by omega) he, z01_last _ (by omega) (by omega), z01_last _ (by omega) (by omega), neg1_odd (by omega)]; ring
    · intro k hk _; omega
  · refine f2.mono ?_
    intro k hk _; omega

end

omit [CLib] in
theorem W11_spec {cexp : ℕ → ℤ → ℝ × ℝ} (hc : ExactCexp cexp) {n i : ℕ} (hn : 0 < n) (he : n % 2 = 0) (hi : i < n / 4 + 1) :
    W11 cexp n (2 * i) = cos (π * i / (2 * ((n / 2 : ℕ) : ℝ))) ∧ W11 cexp n (2 * i + 1) = sin (π * i / (2 * ((n / 2 : ℕ) : ℝ))) := by
  obtain ⟨m, rfl⟩ : ∃ m, n = 2 * m := ⟨n / 2, by omega⟩
  rw [show 2 * m / 2 = m by omega]
  have hval : cexp (2 * (2 * m)) (((i * 1 : ℕ) : ℤ) + 0) = (cos (π * i / (2 * m)), sin (π * i / (2 * m))) := by
    rw [hc _ _ (by omega) (by push_cast; omega) (by push_cast; omega)]
    have hn' : (m : ℝ) ≠ 0 := by exact_mod_cast (show m ≠ 0 by omega)
    have e : 2 * π * ((((i * 1 : ℕ) : ℤ) + 0 : ℤ) : ℝ) / ((2 * (2 * m) : ℕ) : ℝ) = π * i / (2 * m) := by push_cast; field_simp; ring
    rw [e]
  have hm : (2 * m / 4 + 1 + 1 - 1) / 1 = 2 * m / 4 + 1 := by simp
  constructor
  · unfold W11 Twiddle.compute tw010
    dsimp only
    rw [hm, show 2 * i = i * 2 + 0 by ring, getD_flatMap_range _ 2 (fun _ => rfl) _ _ _ _ hi (by omega)]
    show (cexp (2 * (2 * m)) ((((i * 1 : ℕ) : ℤ) + 0) * 1)).1 = _
    rw [mul_one, hval]
  · unfold W11 Twiddle.compute tw010
    dsimp only
    rw [hm, show 2 * i + 1 = i * 2 + 1 by ring, getD_flatMap_range _ 2 (fun _ => rfl) _ _ _ _ hi (by omega)]
    show (cexp (2 * (2 * m)) ((((i * 1 : ℕ) : ℤ) + 0) * 1)).2 = _
    rw [mul_one, hval]

omit [CLib] in
theorem W112_spec {cexp : ℕ → ℤ → ℝ × ℝ} (hc : ExactCexp cexp) {n k : ℕ} (he : n % 2 = 0) (hk : k < n / 2) :
    W112 cexp n (2 * k) = cos (π * (k + 1 / 2) / (2 * n)) ∧ W112 cexp n (2 * k + 1) = sin (π * (k + 1 / 2) / (2 * n)) := by
  have hval : cexp (8 * n) (((k * 2 : ℕ) : ℤ) + 1) = (cos (π * (k + 1 / 2) / (2 * n)), sin (π * (k + 1 / 2) / (2 * n))) := by
    rw [hc _ _ (by omega) (by push_cast; omega) (by push_cast; omega)]
    have hn' : (n : ℝ) ≠ 0 := by exact_mod_cast (show n ≠ 0 by omega)
    have e : 2 * π * ((((k * 2 : ℕ) : ℤ) + 1 : ℤ) : ℝ) / ((8 * n : ℕ) : ℝ) = π * (k + 1 / 2) / (2 * n) := by push_cast; field_simp; ring
    rw [e]
  have hm : k < (n + 2 - 1) / 2 := by omega
  constructor
  · unfold W112 Twiddle.compute
    dsimp only
    rw [show 2 * k = k * 2 + 0 by ring, getD_flatMap_range _ 2 (fun _ => rfl) _ _ _ _ hm (by omega)]
    show (cexp (8 * n) ((((k * 2 : ℕ) : ℤ) + 1) * 1)).1 = _
    rw [mul_one, hval]
  · unfold W112 Twiddle.compute
    dsimp only
    rw [show 2 * k + 1 = k * 2 + 1 by ring, getD_flatMap_range _ 2 (fun _ => rfl) _ _ _ _ hm (by omega)]
    show (cexp (8 * n) ((((k * 2 : ℕ) : ℤ) + 1) * 1)).2 = _
    rw [mul_one, hval]

theorem reodft11Radix2_sound {cexp : ℕ → ℤ → ℝ × ℝ} (hc : ExactCexp cexp) (taste : Taste) : (reodft11Radix2 cexp taste).Sound := by
  apply rdftSolver_sound
  intro p fl hk
  obtain ⟨hpk, ha, hpv, hin⟩ := kosher_rdft hk
  show Mk.Good fl _ (match p.sz, p.vecsz with | [(d, kd)], some v => _ | _, _ => _)
  split
  rotate_left
  · exact good_nada
  rename_i d kd v hsz hv
  cases ht : tornk1 v with
  | none => exact good_nada
  | some vd =>
  dsimp only
  split_ifs with h
  swap
  · exact good_nada
  obtain ⟨⟨he, hkd⟩, -⟩ := h
  have hstr : Straight p := straight_of_kosher hk hsz (by rcases hkd with rfl | rfl <;> rfl)
  have hposv : ∀ e ∈ v, 0 < e.n := hpv v hv
  have hn0 : 0 < d.n := hpk (d, kd) (by simp [hsz])
  have hP : PosK [((⟨d.n / 2, 1, 1⟩ : Dim), RKind.R2HC00)] := by simp [PosK]; omega
  apply good_need
  · exact kosher_mkproblemRdft hP (fun h => absurd rfl h)
  intro cld hcld
  obtain ⟨hG, -⟩ := sound_mkproblemRdft hP hcld
  rw [decide_eq_true rfl] at hG
  apply good_ret
  refine soundRdft (by simp [hv]) ?_
  rw [hsz, hv]
  obtain ⟨n, is, os⟩ := d
  simp only at *
  refine vloop_ok ht hposv (fun hi => hstr (by simpa using hi) v hv) ?_
  have hB := hG.inBufV (by omega)
  rw [show 2 * (n / 2) = n by omega] at hB
  have m2 : ∀ m < n / 2, (n / 2 + m) % (n / 2) = m ∧ (n / 2 + m) / (n / 2) = 1 := by
    intro m hm
    rw [Nat.add_mod_left, Nat.mod_eq_of_lt hm, Nat.add_div_left _ (by omega), Nat.div_eq_of_lt hm]
    simp
  have hW := fun i hi => W11_spec hc (n := n) (i := i) hn0 he hi
  have hW2 := fun k hk => W112_spec hc (n := n) (k := k) he hk
  rcases hkd with rfl | rfl
  · refine cast ?_ (R1_prepostG (K := .REDFT11) (is := is) (os := os) (nd := fl.nd) (inpl := decide (p.I = p.O)) (re11Pre_fill hn0 he hW) hB (post_fill (re11Post_fill hn0 he hW2)) (fun x y hy k hk => redft11_math hn0 he x y (fun m hm => ?_) (fun m hm => ?_) hk))
    · congr 1
    · rw [hy m (by omega), Nat.mod_eq_of_lt hm, Nat.div_eq_of_lt hm]; simp
    · rw [hy _ (by omega), (m2 m hm).1, (m2 m hm).2]; simp
  · refine cast ?_ (R1_prepostG (K := .RODFT11) (A := fun x => a11 n fun l => x (n - 1 - l)) (is := is) (os := os) (nd := fl.nd) (inpl := decide (p.I = p.O)) (ro11Pre_fill hn0 he hW) hB (post_fill (ro11Post_fill hn0 he hW2)) (fun x y hy k hk => rodft11_math hn0 he x y (fun m hm => ?_) (fun m hm => ?_) hk))
    · congr 1
    · rw [hy m (by omega), Nat.mod_eq_of_lt hm, Nat.div_eq_of_lt hm]; simp
    · rw [hy _ (by omega), (m2 m hm).1, (m2 m hm).2]; simp

end FFTW.Reodft
