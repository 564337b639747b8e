import Verif.Proofs.Reodft11

/-!
# reodft/reodft11e-r2hc-odd.c computes REDFT11 and RODFT11
-/

namespace FFTW.Reodft
open Tensor DftS RdftS Spec Finset Real

variable [CLib]

omit [CLib] in
theorem walk_fill {m0 : Ptr → ℝ} {nx : ℕ} {B : Ptr} {n : ℕ} {A : ℕ → ℝ} {a b : ℕ} (hab : a ≤ b) (hb : b ≤ n) {st : State}
    (h : Fill m0 nx B 1 n A (fun k => k < a) st) {v : ℕ → State → ℝ}
    (hv : ∀ i, a ≤ i → i < b → ∀ st, Fill m0 nx B 1 n A (fun k => k < i) st → v i st = A i) :
    Fill m0 nx B 1 n A (fun k => k < b) (walk a b (fun i st => st.set (B + (i : ℤ)) (v i st)) st) := by
  have := Fill.loop (S := fun t k => k < a + t) (N := b - a) (f := fun t st => st.set (B + ((a + t : ℕ) : ℤ)) (v (a + t) st)) h (by
    intro i hi s hs
    refine (hs.set (one_RInj _) (k := a + i) (by omega) (by simp) (hv (a + i) (by omega) (by omega) s hs)).mono ?_
    intro k hk h; omega)
  refine Fill.mono this ?_
  intro k hk h; omega

omit [CLib] in
theorem re11oPre_fill {n : ℕ} {is : ℤ} (ho : n % 2 = 1) (I B : Ptr) (st : State) (hIB : I.blk ≠ B.blk) :
    Fill st.mem st.next B 1 n ((fun x j => x11 n x (n / 2 + 4 * j)) fun j => st.mem (I + (j : ℤ) * is)) (fun _ => True) (re11oPre n is I B st) := by
  unfold re11oPre
  set A : ℕ → ℝ := (fun x j => x11 n x (n / 2 + 4 * j)) fun j => st.mem (I + (j : ℤ) * is) with hA
  have f0 : Fill st.mem st.next B 1 n A (fun k => k < 0) st := (Fill.start st B 1 n A).mono (by intro k hk h; omega)
  refine (walk_fill (b := n) (by unfold upto; omega) le_rfl (walk_fill (by unfold upto; omega) (by unfold upto; omega) (walk_fill (by unfold upto; omega) (by unfold upto; omega)
    (walk_fill (by unfold upto; omega) (by unfold upto; omega) (walk_fill (by unfold upto; omega) (by unfold upto; omega) f0 ?_) ?_) ?_) ?_) ?_).mono (fun k hk _ => hk)
  all_goals
    intro i hi hi' s hs
    rw [hs.get' hIB]
    simp only [hA]
    unfold upto at hi
  · unfold upto at hi'; rw [x11, if_pos (by omega)]
  · unfold upto at hi'; rw [x11, if_neg (by omega), if_pos (by omega)]
  · unfold upto at hi'; rw [x11, if_neg (by omega), if_neg (by omega), if_pos (by omega)]
  · unfold upto at hi'; rw [x11, if_neg (by omega), if_neg (by omega), if_neg (by omega), if_pos (by omega)]
  · rw [x11, if_neg (by omega), if_neg (by omega), if_neg (by omega), if_neg (by omega)]

omit [CLib] in
theorem ro11oPre_fill {n : ℕ} {is : ℤ} (ho : n % 2 = 1) (I B : Ptr) (st : State) (hIB : I.blk ≠ B.blk) :
    Fill st.mem st.next B 1 n ((fun x j => x11 n (fun l => x (n - 1 - l)) (n / 2 + 4 * j)) fun j : ℕ => st.mem (I + (j : ℤ) * is)) (fun _ => True) (ro11oPre n is I B st) := by
  unfold ro11oPre
  set A : ℕ → ℝ := (fun x j => x11 n (fun l => x (n - 1 - l)) (n / 2 + 4 * j)) fun j : ℕ => st.mem (I + (j : ℤ) * is) with hA
  have f0 : Fill st.mem st.next B 1 n A (fun k => k < 0) st := (Fill.start st B 1 n A).mono (by intro k hk h; omega)
  refine (walk_fill (b := n) (by unfold upto; omega) le_rfl (walk_fill (by unfold upto; omega) (by unfold upto; omega) (walk_fill (by unfold upto; omega) (by unfold upto; omega)
    (walk_fill (by unfold upto; omega) (by unfold upto; omega) (walk_fill (by unfold upto; omega) (by unfold upto; omega) f0 ?_) ?_) ?_) ?_) ?_).mono (fun k hk _ => hk)
  all_goals
    intro i hi hi' s hs
    rw [hs.get' hIB]
    simp only [hA]
    unfold upto at hi
  · unfold upto at hi'; rw [x11, if_pos (by omega)]
  · unfold upto at hi'; rw [x11, if_neg (by omega), if_pos (by omega)]; congr 5; omega
  · unfold upto at hi'; rw [x11, if_neg (by omega), if_neg (by omega), if_pos (by omega)]; congr 5; omega
  · unfold upto at hi'; rw [x11, if_neg (by omega), if_neg (by omega), if_neg (by omega), if_pos (by omega)]; congr 4; omega
  · rw [x11, if_neg (by omega), if_neg (by omega), if_neg (by omega), if_neg (by omega)]

omit [CLib] in
theorem sgnSet_eq (x : ℝ) (i : ℕ) : sgnSet x i = sg i * x := by unfold sgnSet sg; split_ifs <;> ring

omit [CLib] in
/-- the values stored in one round -/
theorem z11o_vals {n i : ℕ} (ho : n % 2 = 1) (y : ℕ → ℝ) :
    (2 * i + 1 ≤ n / 2 → z11o n y i = √2 * (sg ((i + 1) / 2) * y (2 * i + 1) + sg (i / 2) * y (n - (2 * i + 1))) ∧
      z11o n y (n - (i + 1)) = √2 * (sg ((n - i) / 2) * y (2 * i + 1) - sg ((n - (i + 1)) / 2) * y (n - (2 * i + 1)))) ∧
    (2 * i + 1 < n / 2 → z11o n y (n / 2 - (i + 1)) = √2 * (sg ((n / 2 - i) / 2) * y (2 * i + 2) - sg ((n / 2 - (i + 1)) / 2) * y (n - (2 * i + 2))) ∧
      z11o n y (n / 2 + (i + 1)) = √2 * (sg ((n / 2 + i + 2) / 2) * y (2 * i + 2) + sg ((n / 2 + (i + 1)) / 2) * y (n - (2 * i + 2)))) ∧
    z11o n y (n / 2) = √2 * (sg ((n / 2 + 1) / 2) * y 0) := by
  refine ⟨fun h => ⟨?_, ?_⟩, fun h => ⟨?_, ?_⟩, ?_⟩
  · rw [z11o, re11o, im11o, if_neg (by omega), if_pos (by omega), if_neg (by omega), if_pos (by omega)]
  · rw [z11o, re11o, im11o, if_neg (by omega), if_neg (by omega), if_neg (by omega), if_neg (by omega), if_neg (by omega), if_neg (by omega), if_neg (by omega), if_neg (by omega),
      show n - (i + 1) + 1 = n - i by omega, show 2 * n - (2 * (n - (i + 1)) + 1) = 2 * i + 1 by omega]; ring
  · rw [z11o, re11o, im11o, if_neg (by omega), if_neg (by omega), if_pos (by omega), if_neg (by omega), if_neg (by omega), if_pos (by omega),
      show n / 2 - (i + 1) + 1 = n / 2 - i by omega, show n - (2 * (n / 2 - (i + 1)) + 1) = 2 * i + 2 by omega,
      show 2 * (n / 2 - (i + 1)) + 1 = n - (2 * i + 2) by omega]; ring
  · rw [z11o, re11o, im11o, if_neg (by omega), if_neg (by omega), if_neg (by omega), if_pos (by omega), if_neg (by omega), if_neg (by omega), if_neg (by omega), if_pos (by omega),
      show n / 2 + (i + 1) + 1 = n / 2 + i + 2 by omega, show 2 * (n / 2 + (i + 1)) + 1 - n = 2 * i + 2 by omega]
  · rw [z11o, re11o, im11o, if_pos rfl, if_pos rfl]; ring

omit [CLib] in
theorem mid_parity {n : ℕ} (ho : n % 2 = 1) (h : n / 2 / 2 + n / 2 / 2 + 1 = n / 2) :
    (n - n / 2 / 2) / 2 % 2 = (n / 2 / 2 + 2) / 2 % 2 ∧ (n - (n / 2 / 2 + 1)) / 2 % 2 ≠ (n / 2 / 2 + 1) / 2 % 2 := by
  obtain ⟨i, hi⟩ : ∃ i, n / 2 / 2 = i := ⟨_, rfl⟩
  rw [hi] at h ⊢
  obtain rfl : n = 4 * i + 3 := by omega
  clear h hi ho
  obtain ⟨t, rfl | rfl⟩ : ∃ t, i = 2 * t ∨ i = 2 * t + 1 := ⟨i / 2, by omega⟩
  · rw [show 4 * (2 * t) + 3 - 2 * t = 6 * t + 3 by omega, show 4 * (2 * t) + 3 - (2 * t + 1) = 6 * t + 2 by omega]
    omega
  · rw [show 4 * (2 * t + 1) + 3 - (2 * t + 1) = 6 * t + 6 by omega, show 4 * (2 * t + 1) + 3 - (2 * t + 1 + 1) = 6 * t + 5 by omega]
    omega

omit [CLib] in
theorem re11oPost_fill {n : ℕ} {os : ℤ} (hodd : n % 2 = 1) (ho : RInj os n) (B O : Ptr) (st : State) (hIB : B.blk ≠ O.blk) :
    Fill st.mem st.next O os n (z11o n fun j => st.mem (B + (j : ℤ))) (fun _ => True) (re11oPost n os B O st) := by
  unfold re11oPost
  dsimp only
  set y : ℕ → ℝ := fun j => st.mem (B + (j : ℤ)) with hy
  have y0 : st.mem B = y 0 := by simp [hy, ptr_add_zero]
  have hyd : ∀ j : ℕ, st.mem (B + (j : ℤ)) = y j := fun _ => rfl
  simp only [sgnSet_eq]
  have f0 := Fill.start st O os n (z11o n y)
  generalize hst : forN _ _ _ = st1
  have f1 : Fill st.mem st.next O os n (z11o n y) (fun k => k < n / 2 / 2 ∨ n - n / 2 / 2 ≤ k ∨ (n / 2 - n / 2 / 2 ≤ k ∧ k < n / 2) ∨ (n / 2 < k ∧ k ≤ n / 2 + n / 2 / 2)) st1 := by
    rw [← hst]
    refine Fill.loop (S := fun i k => k < i ∨ n - i ≤ k ∨ (n / 2 - i ≤ k ∧ k < n / 2) ∨ (n / 2 < k ∧ k ≤ n / 2 + i)) (f0.mono (by intro k hk h; omega)) ?_
    intro i hi s hs
    rw [hs.get' hIB, hs.get' hIB, hs.get' hIB, hs.get' hIB, hyd, hyd, hyd, hyd, show i + i + 1 + 1 = 2 * i + 2 by omega, show i + i + 1 = 2 * i + 1 by omega]
    obtain ⟨v1, v2, -⟩ := z11o_vals (i := i) hodd y
    obtain ⟨v11, v12⟩ := v1 (by omega)
    obtain ⟨v21, v22⟩ := v2 (by omega)
    refine ((((hs.set ho (k := i) (by omega) rfl v11.symm).set ho (k := n - (i + 1)) (by omega) rfl v12.symm).set ho (k := n / 2 - (i + 1)) (by omega) rfl v21.symm).set ho (k := n / 2 + (i + 1)) (by omega) rfl v22.symm).mono ?_
    intro k hk h; omega
  have vl := (z11o_vals (n := n) (i := n / 2 / 2) hodd y)
  split_ifs with h
  · obtain ⟨v1, v2⟩ := vl.1 (by omega)
    have f2 := (f1.set ho (k := n / 2 / 2) (by omega) rfl v1.symm).set ho (k := n - (n / 2 / 2 + 1)) (by omega) rfl v2.symm
    have e1 : sg ((n - n / 2 / 2) / 2) = sg ((n / 2 / 2 + 2) / 2) := sg_congr (mid_parity hodd h).1
    have e2 : sg ((n - (n / 2 / 2 + 1)) / 2) = - sg ((n / 2 / 2 + 1) / 2) := sg_anti (mid_parity hodd h).2
    rw [show 2 * (n / 2 / 2) + 1 = n / 2 by omega] at f2
    rw [e1, e2, neg_mul, sub_neg_eq_add] at f2
    rw [f1.get' hIB, f1.get' hIB, hyd, hyd, f2.get hIB, y0]
    refine (f2.set ho (k := n / 2) (by omega) rfl vl.2.2.symm).mono ?_
    intro k hk _; omega
  · rw [f1.get hIB, y0]
    refine (f1.set ho (k := n / 2) (by omega) rfl vl.2.2.symm).mono ?_
    intro k hk _; omega

omit [CLib] in
theorem sg_add (a b : ℕ) : sg (a + b) = sg a * sg b := by
  unfold sg
  rcases Nat.mod_two_eq_zero_or_one a with h1 | h1 <;> rcases Nat.mod_two_eq_zero_or_one b with h2 | h2 <;> simp [Nat.add_mod, h1, h2]

omit [CLib] in
theorem sg_pow (k : ℕ) : (-1 : ℝ) ^ k = sg k := by
  rcases Nat.mod_two_eq_zero_or_one k with h | h
  · rw [neg1_even h]; simp [sg, h]
  · rw [neg1_odd h]; simp [sg, h]

omit [CLib] in
theorem ro11oPost_fill {n : ℕ} {os : ℤ} (hodd : n % 2 = 1) (ho : RInj os n) (B O : Ptr) (st : State) (hIB : B.blk ≠ O.blk) :
    Fill st.mem st.next O os n ((fun y k => (-1) ^ k * z11o n y k) fun j => st.mem (B + (j : ℤ))) (fun _ => True) (ro11oPost n os B O st) := by
  unfold ro11oPost
  dsimp only
  set y : ℕ → ℝ := fun j => st.mem (B + (j : ℤ)) with hy
  set A : ℕ → ℝ := fun k => (-1) ^ k * z11o n y k with hA
  have y0 : st.mem B = y 0 := by simp [hy, ptr_add_zero]
  have hyd : ∀ j : ℕ, st.mem (B + (j : ℤ)) = y j := fun _ => rfl
  have hAd : ∀ k, A k = sg k * z11o n y k := by intro k; simp only [hA]; rw [sg_pow]
  simp only [sgnSet_eq]
  have f0 := Fill.start st O os n A
  generalize hst : forN _ _ _ = st1
  have f1 : Fill st.mem st.next O os n A (fun k => k < n / 2 / 2 ∨ n - n / 2 / 2 ≤ k ∨ (n / 2 - n / 2 / 2 ≤ k ∧ k < n / 2) ∨ (n / 2 < k ∧ k ≤ n / 2 + n / 2 / 2)) st1 := by
    rw [← hst]
    refine Fill.loop (S := fun i k => k < i ∨ n - i ≤ k ∨ (n / 2 - i ≤ k ∧ k < n / 2) ∨ (n / 2 < k ∧ k ≤ n / 2 + i)) (f0.mono (by intro k hk h; omega)) ?_
    intro i hi s hs
    rw [hs.get' hIB, hs.get' hIB, hs.get' hIB, hs.get' hIB, hyd, hyd, hyd, hyd, show i + i + 1 + 1 = 2 * i + 2 by omega, show i + i + 1 = 2 * i + 1 by omega]
    obtain ⟨v1, v2, -⟩ := z11o_vals (i := i) hodd y
    obtain ⟨v11, v12⟩ := v1 (by omega)
    obtain ⟨v21, v22⟩ := v2 (by omega)
    refine ((((hs.set ho (k := i) (by omega) rfl ?_).set ho (k := n - (i + 1)) (by omega) rfl ?_).set ho (k := n / 2 - (i + 1)) (by omega) rfl ?_).set ho (k := n / 2 + (i + 1)) (by omega) rfl ?_).mono ?_
    · rw [hAd, v11, sg_add, sg_add]; ring
    · rw [hAd, v12, sg_add, sg_add, show sg (n - (i + 1)) = sg i from sg_congr (by omega)]; ring
    · rw [hAd, v21, sg_add, sg_add]; ring
    · rw [hAd, v22, sg_add, sg_add, show sg (n / 2 + (i + 1)) = sg (n / 2 - (i + 1)) from sg_congr (by omega)]; ring
    · intro k hk h; omega
  have vl := (z11o_vals (n := n) (i := n / 2 / 2) hodd y)
  have vend : A (n / 2) = √2 * (sg ((n / 2 + 1) / 2 + n / 2) * y 0) := by rw [hAd, vl.2.2, sg_add]; ring
  split_ifs with h
  · obtain ⟨v1, v2⟩ := vl.1 (by omega)
    have e1 : sg ((n - n / 2 / 2) / 2) = sg ((n / 2 / 2 + 2) / 2) := sg_congr (mid_parity hodd h).1
    have e2 : sg ((n - (n / 2 / 2 + 1)) / 2) = - sg ((n / 2 / 2 + 1) / 2) := sg_anti (mid_parity hodd h).2
    rw [show 2 * (n / 2 / 2) + 1 = n / 2 by omega] at v1 v2
    rw [e1, e2, neg_mul, sub_neg_eq_add] at v2
    have w1 : A (n / 2 / 2) = √2 * (sg ((n / 2 / 2 + 1) / 2 + n / 2 / 2) * y (n / 2) + sg (n / 2 / 2 / 2 + n / 2 / 2) * y (n - n / 2)) := by
      rw [hAd, v1, sg_add, sg_add]; ring
    have w2 : A (n - (n / 2 / 2 + 1)) = √2 * (sg ((n / 2 / 2 + 2) / 2 + n / 2 / 2) * y (n / 2) + sg ((n / 2 / 2 + 1) / 2 + n / 2 / 2) * y (n - n / 2)) := by
      rw [hAd, v2, sg_add, sg_add, show sg (n - (n / 2 / 2 + 1)) = sg (n / 2 / 2) from sg_congr (by omega)]; ring
    have f2 := (f1.set ho (k := n / 2 / 2) (by omega) rfl w1.symm).set ho (k := n - (n / 2 / 2 + 1)) (by omega) rfl w2.symm
    rw [f1.get' hIB, f1.get' hIB, hyd, hyd, f2.get hIB, y0]
    refine (f2.set ho (k := n / 2) (by omega) rfl vend.symm).mono ?_
    intro k hk _; omega
  · rw [f1.get hIB, y0]
    refine (f1.set ho (k := n / 2) (by omega) rfl vend.symm).mono ?_
    intro k hk _; omega

theorem reodft11Odd_sound (taste : Taste) : (reodft11Odd taste).Sound := by
  apply rdftSolver_sound
  intro p fl hk
  obtain ⟨hpk, ha, hpv, hin⟩ := kosher_rdft hk
  show Mk.Good fl _ (match p.sz, p.vecsz with | [(d, kd)], some v => _ | _, _ => _)
  split
  rotate_left
  · exact good_nada
  rename_i d kd v hsz hv
  cases ht : tornk1 v with
  | none => exact good_nada
  | some vd =>
  dsimp only
  split_ifs with h
  swap
  · exact good_nada
  obtain ⟨⟨he, hkd⟩, -⟩ := h
  have hstr : Straight p := straight_of_kosher hk hsz (by rcases hkd with rfl | rfl <;> rfl)
  have hposv : ∀ e ∈ v, 0 < e.n := hpv v hv
  have hn0 : 0 < d.n := hpk (d, kd) (by simp [hsz])
  apply good_need
  · exact kosher_mkproblemRdft (by simpa [PosK] using hn0) (fun h => absurd rfl h)
  intro cld hcld
  obtain ⟨hG, -⟩ := sound_mkproblemRdft (by simpa [PosK] using hn0) hcld
  rw [decide_eq_true rfl] at hG
  apply good_ret
  refine soundRdft (by simp [hv]) ?_
  rw [hsz, hv]
  obtain ⟨n, is, os⟩ := d
  simp only at *
  refine vloop_ok ht hposv (fun hi => hstr (by simpa using hi) v hv) ?_
  rcases hkd with rfl | rfl
  · exact R1_prepost (K := .REDFT11) (A := fun x j => x11 n x (n / 2 + 4 * j)) (re11oPre_fill he) hG.rank1R (post_fill (re11oPost_fill he)) (fun x y hy k hk => redft11o_math he x y hy hk)
  · exact R1_prepost (K := .RODFT11) (A := fun x j => x11 n (fun l => x (n - 1 - l)) (n / 2 + 4 * j)) (ro11oPre_fill he) hG.rank1R (post_fill (ro11oPost_fill he)) (fun x y hy k hk => rodft11o_math he x y hy hk)

end FFTW.Reodft
