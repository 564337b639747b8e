import Verif.Model.Reodft
import Verif.Proofs.Fill
import Verif.Proofs.ReodftMath
import Verif.Proofs.DftGeneric
import Verif.Spec.Cexp

/-! # The solvers of reodft/ are sound (in-place vectors not transposed) -/

namespace FFTW.Reodft
open Tensor Spec DftS RdftS Finset

variable [CLib]

omit [CLib] in
theorem vloop_ok {d vd : Dim} {v : List Dim} {kd : RKind} {inpl nd : Bool} {g : Ptr → Ptr → State → State} (ht : tornk1 v = some vd)
    (hpos : ∀ e ∈ v, 0 < e.n) (hs : inpl = true → ∀ e ∈ v, e.is = e.os) (h : R1 kd d.n d.is d.os inpl nd g) :
    GOK rK [(d, kd)] (some v) 0 0 inpl nd (vloop vd g) := GOK_vec1 ht hpos hs h

omit [CLib] in
theorem redft00Pre_fill {n : ℕ} (hn : 0 < n) {is : ℤ} (I B : Ptr) (st : State) (hIB : I.blk ≠ B.blk) :
    Fill st.mem st.next B 1 (2 * n) ((fun (x : ℕ → ℝ) j => if j ≤ n then x j else x (2 * n - j)) fun j => st.mem (I + (j : ℤ) * is)) (fun _ => True) (redft00Pre n is I B st) := by
  unfold redft00Pre
  set A : ℕ → ℝ := ((fun (x : ℕ → ℝ) j => if j ≤ n then x j else x (2 * n - j)) fun j => st.mem (I + (j : ℤ) * is)) with hA
  have f0 := (Fill.start st B 1 (2 * n) A).set (one_RInj _) (k := 0) (by omega) (p := B) (by simp [ptr_add_zero]) (v := st.mem I) (by simp [hA, ptr_add_zero])
  have f1 := Fill.loop (S := fun i k => k ≤ i ∨ 2 * n - i ≤ k) (N := n - 1) (f := fun i0 st =>
    let i := i0 + 1
    let a := st.mem (I + (i : ℤ) * is)
    (st.set (B + (i : ℤ)) a).set (B + ((2 * n - i : ℕ) : ℤ)) a) (f0.mono (by intro k hk h; right; omega)) (by
      intro i hi s hs
      dsimp only
      rw [hs.get' hIB]
      refine ((hs.set (one_RInj _) (k := i + 1) (by omega) (by simp) ?_).set (one_RInj _) (k := 2 * n - (i + 1)) (by omega) (by simp) ?_).mono ?_
      · simp only [hA]; rw [if_pos (by omega)]
      · simp only [hA]; rw [if_neg (by omega), show 2 * n - (2 * n - (i + 1)) = i + 1 by omega]
      · intro k hk h; omega)
  refine (f1.set (one_RInj _) (k := n) (by omega) (by simp) ?_).mono ?_
  · rw [f1.get' hIB]; simp only [hA]; rw [if_pos (le_refl _)]
  · intro k hk _; omega

omit [CLib] in
theorem rodft00Pre_fill {n : ℕ} {is : ℤ} (I B : Ptr) (st : State) (hIB : I.blk ≠ B.blk) :
    Fill st.mem st.next B 1 (2 * (n + 1)) ((fun (x : ℕ → ℝ) j => if j = 0 ∨ j = n + 1 then 0 else if j ≤ n then - x (j - 1) else x (2 * (n + 1) - j - 1)) fun j => st.mem (I + (j : ℤ) * is))
      (fun _ => True) (rodft00Pre (n + 1) is I B st) := by
  unfold rodft00Pre
  set A : ℕ → ℝ := ((fun (x : ℕ → ℝ) j => if j = 0 ∨ j = n + 1 then 0 else if j ≤ n then - x (j - 1) else x (2 * (n + 1) - j - 1)) fun j => st.mem (I + (j : ℤ) * is)) with hA
  have f0 := (Fill.start st B 1 (2 * (n + 1)) A).set (one_RInj _) (k := 0) (by omega) (p := B) (by simp [ptr_add_zero]) (v := 0) (by simp [hA])
  have f1 := Fill.loop (S := fun i k => k ≤ i ∨ 2 * (n + 1) - i ≤ k) (N := n + 1 - 1) (f := fun i0 st =>
    let i := i0 + 1
    let a := st.mem (I + ((i - 1 : ℕ) : ℤ) * is)
    (st.set (B + (i : ℤ)) (-a)).set (B + ((2 * (n + 1) - i : ℕ) : ℤ)) a) (f0.mono (by intro k hk h; right; omega)) (by
      intro i hi s hs
      dsimp only
      rw [hs.get' hIB]
      refine ((hs.set (one_RInj _) (k := i + 1) (by omega) (by simp) ?_).set (one_RInj _) (k := 2 * (n + 1) - (i + 1)) (by omega) (by simp) ?_).mono ?_
      · simp only [hA]; rw [if_neg (by omega), if_pos (by omega)]
      · simp only [hA]; rw [if_neg (by omega), if_neg (by omega), show 2 * (n + 1) - (2 * (n + 1) - (i + 1)) - 1 = i + 1 - 1 by omega]
      · intro k hk h; omega)
  refine (f1.set (one_RInj _) (k := n + 1) (by omega) (by simp) ?_).mono ?_
  · simp [hA]
  · intro k hk _; omega

/-- in-place vectors are not transposed -/
def Straight (p : RdftP) : Prop := p.I = p.O → ∀ v, p.vecsz = some v → ∀ e ∈ v, e.is = e.os

omit [CLib] in
theorem straight_of_kosher {p : RdftP} (hk : Kosher (.rdft p)) {d : Dim} {kd : RKind} (hsz : p.sz = [(d, kd)]) (ht : kd.reodft = true) : Straight p :=
  fun he v hv => (hk.2 he ⟨(d, kd), by simp [hsz], ht⟩ v hv).2

theorem pb_ne {p : RdftP} {q : Ptr} (hq : q = p.I ∨ q = p.O) (a b : ℤ) : planBuf [p.I, p.O] + a ≠ q + b := by
  intro he
  have h1 := congrArg Ptr.blk he
  have h2 : (planBuf [p.I, p.O]).blk = q.blk := h1
  have : q.blk < (planBuf [p.I, p.O]).blk := planBuf_blk (by rcases hq with rfl | rfl <;> simp)
  omega

theorem redft00Pad_sound (taste : Taste) : (redft00Pad taste).Sound := by
  apply rdftSolver_sound
  intro p fl hk
  obtain ⟨hpk, ha, hpv, hin⟩ := kosher_rdft hk
  show Mk.Good fl _ (match p.sz, p.vecsz with | [(d, .REDFT00)], some v => _ | _, _ => _)
  split
  rotate_left
  · exact good_nada
  rename_i d v hsz hv
  cases ht : tornk1 v with
  | none => exact good_nada
  | some vd =>
  dsimp only
  split_ifs with h
  swap
  · exact good_nada
  obtain ⟨hn, -⟩ := h
  have hstr : Straight p := straight_of_kosher hk hsz (rfl)
  have hposv : ∀ e ∈ v, 0 < e.n := hpv v hv
  apply good_need
  · exact kosher_mkproblemRdft (by simp [PosK]; omega) (fun h => absurd rfl h)
  intro cld hcld
  obtain ⟨hG, -⟩ := sound_mkproblemRdft (by simp [PosK]; omega) hcld
  apply good_need
  · exact kosher_mkproblemRdft (by simp [PosK]) (fun _ a _ b _ => pb_ne (Or.inr rfl) _ _)
  intro cpy hcpy
  obtain ⟨hC, -⟩ := sound_mkproblemRdft (by simp [PosK]) hcpy
  rw [decide_eq_false (fun h => pb_ne (p := p) (Or.inr rfl) 0 0 (by rw [h]))] at hC
  rw [decide_eq_true rfl] at hG
  apply good_ret
  refine soundRdft (by simp [hv]) ?_
  rw [hsz, hv]
  obtain ⟨n, is, os⟩ := d
  obtain ⟨n, rfl⟩ : ∃ m, n = m + 1 := ⟨n - 1, by simp only at hn; omega⟩
  simp only [Nat.add_sub_cancel] at *
  have hn0 : 0 < n := by omega
  refine vloop_ok ht hposv (fun hi => hstr (by simpa using hi) v hv) ?_
  refine R1_prepost (K := .REDFT00) (Z := fun y k => y k) (redft00Pre_fill hn0) hG.rank1R ?_ (fun x y hy k hk => redft00_math hn0 x y hy hk)
  intro ho B O st hB hO hne
  obtain ⟨c1, c2, c3⟩ := hC.copyR ho (fun _ => one_RInj _) (I := B) (O := O) (st := st) hB hO rfl hne
  simp only [mul_one] at c3
  exact ⟨c1, c2, c3⟩

theorem rodft00Pad_sound (taste : Taste) : (rodft00Pad taste).Sound := by
  apply rdftSolver_sound
  intro p fl hk
  obtain ⟨hpk, ha, hpv, hin⟩ := kosher_rdft hk
  show Mk.Good fl _ (match p.sz, p.vecsz with | [(d, .RODFT00)], some v => _ | _, _ => _)
  split
  rotate_left
  · exact good_nada
  rename_i d v hsz hv
  cases ht : tornk1 v with
  | none => exact good_nada
  | some vd =>
  dsimp only
  split_ifs with h
  swap
  · exact good_nada
  have hstr : Straight p := straight_of_kosher hk hsz (rfl)
  have hposv : ∀ e ∈ v, 0 < e.n := hpv v hv
  apply good_need
  · exact kosher_mkproblemRdft (by simp [PosK]) (fun h => absurd rfl h)
  intro cld hcld
  obtain ⟨hG, -⟩ := sound_mkproblemRdft (by simp [PosK]) hcld
  apply good_need
  · exact kosher_mkproblemRdft (by simp [PosK]) (fun _ a _ b _ => by rw [Ptr.add_add]; exact pb_ne (Or.inr rfl) _ _)
  intro cpy hcpy
  obtain ⟨hC, -⟩ := sound_mkproblemRdft (by simp [PosK]) hcpy
  rw [decide_eq_false (fun h => pb_ne (p := p) (Or.inr rfl) (2 * ((d.n + 1 : ℕ) : ℤ) - 1) 0 (by rw [h, ptr_add_zero]))] at hC
  rw [decide_eq_true rfl] at hG
  apply good_ret
  refine soundRdft (by simp [hv]) ?_
  rw [hsz, hv]
  obtain ⟨n, is, os⟩ := d
  simp only [Nat.add_sub_cancel] at *
  refine vloop_ok ht hposv (fun hi => hstr (by simpa using hi) v hv) ?_
  refine R1_prepost (K := .RODFT00) (Z := fun y k => y (2 * (n + 1) - 1 - k)) (post := fun B O st => cpy.rdftApply (B + (2 * ((n + 1 : ℕ) : ℤ) - 1)) O st)
    rodft00Pre_fill hG.rank1R ?_ (fun x y hy k hk => rodft00_math x y hy hk)
  intro ho B O st hB hO hne
  obtain ⟨c1, c2, c3⟩ := hC.copyR ho (fun _ => by intro k k' _ _ e; simp only at e; omega) (I := B + (2 * ((n + 1 : ℕ) : ℤ) - 1)) (O := O) (st := st) hB hO rfl hne
  refine ⟨c1, c2, fun k hk => ?_⟩
  rw [c3 k hk, Ptr.add_add]
  congr 2
  show 2 * ((n + 1 : ℕ) : ℤ) - 1 + (k : ℤ) * (-1) = _
  have hk : k < n := hk
  push_cast [Nat.sub_sub]
  omega

/-! ### reodft010e-r2hc -/

omit [CLib] in
theorem W010_spec {cexp : ℕ → ℤ → ℝ × ℝ} (hc : ExactCexp cexp) {n i : ℕ} (hn : 0 < n) (hi : i < n / 2 + 1) :
    W010 cexp n (2 * i) = Real.cos (Real.pi * i / (2 * n)) ∧ W010 cexp n (2 * i + 1) = Real.sin (Real.pi * i / (2 * n)) := by
  have hval : cexp (4 * n) (((i * 1 : ℕ) : ℤ) + 0) = (Real.cos (Real.pi * i / (2 * n)), Real.sin (Real.pi * i / (2 * n))) := by
    rw [hc (4 * n) _ (by omega) (by push_cast; omega) (by push_cast; omega)]
    have hn' : (n : ℝ) ≠ 0 := by exact_mod_cast hn.ne'
    have e : 2 * Real.pi * ((((i * 1 : ℕ) : ℤ) + 0 : ℤ) : ℝ) / ((4 * n : ℕ) : ℝ) = Real.pi * i / (2 * n) := by push_cast; field_simp; ring
    rw [e]
  have hm : (n / 2 + 1 + 1 - 1) / 1 = n / 2 + 1 := by simp
  constructor
  · unfold W010 Twiddle.compute tw010
    dsimp only
    rw [hm, show 2 * i = i * 2 + 0 by ring, getD_flatMap_range _ 2 (fun _ => rfl) _ _ _ _ hi (by omega)]
    show (cexp (4 * n) ((((i * 1 : ℕ) : ℤ) + 0) * 1)).1 = _
    rw [mul_one, hval]
  · unfold W010 Twiddle.compute tw010
    dsimp only
    rw [hm, show 2 * i + 1 = i * 2 + 1 by ring, getD_flatMap_range _ 2 (fun _ => rfl) _ _ _ _ hi (by omega)]
    show (cexp (4 * n) ((((i * 1 : ℕ) : ℤ) + 0) * 1)).2 = _
    rw [mul_one, hval]

omit [CLib] in
theorem pi_quarter {n i : ℕ} (h : i = n - i) (hi : 0 < i) : Real.cos (Real.pi * i / (2 * n)) = Real.sin (Real.pi * i / (2 * n)) := by
  have : n = 2 * i := by omega
  subst this
  have hi' : (i : ℝ) ≠ 0 := by exact_mod_cast hi.ne'
  have e : Real.pi * i / (2 * ((2 * i : ℕ) : ℝ)) = Real.pi / 4 := by push_cast; field_simp; norm_num
  rw [e, Real.cos_pi_div_four, Real.sin_pi_div_four]

section
variable {n : ℕ} {is os : ℤ} {W : ℕ → ℝ}

omit [CLib] in
theorem re10Pre_fill (hn : 0 < n) (I B : Ptr) (st : State) (hIB : I.blk ≠ B.blk) :
    Fill st.mem st.next B 1 n ((fun (x : ℕ → ℝ) j => x (perm10 n j)) fun j => st.mem (I + (j : ℤ) * is)) (fun _ => True) (re10Pre n is I B st) := by
  unfold re10Pre
  set A : ℕ → ℝ := ((fun (x : ℕ → ℝ) j => x (perm10 n j)) fun j => st.mem (I + (j : ℤ) * is)) with hA
  have f0 := (Fill.start st B 1 n A).set (one_RInj _) (k := 0) (by omega) (p := B) (by simp [ptr_add_zero]) (v := st.mem I) (by
    simp only [hA]; rw [perm10, if_pos (by omega)]; simp [ptr_add_zero])
  have f1 := Fill.loop (S := fun i k => k ≤ i ∨ n - i ≤ k) (N := (n - 1) / 2) (f := fun i0 st =>
    let i := i0 + 1
    let k := i + i
    let u := st.mem (I + ((k - 1 : ℕ) : ℤ) * is)
    let v := st.mem (I + (k : ℤ) * is)
    (st.set (B + ((n - i : ℕ) : ℤ)) u).set (B + (i : ℤ)) v) (f0.mono (by intro k hk h; right; omega)) (by
      intro i hi s hs
      dsimp only
      rw [hs.get' hIB, hs.get' hIB]
      refine ((hs.set (one_RInj _) (k := n - (i + 1)) (by omega) (by simp) ?_).set (one_RInj _) (k := i + 1) (by omega) (by simp) ?_).mono ?_
      · simp only [hA]; rw [perm10, if_neg (by omega)]; congr 4; omega
      · simp only [hA]; rw [perm10, if_pos (by omega)]; congr 4; omega
      · intro k hk h; omega)
  dsimp only at f1 ⊢
  split_ifs with h
  · refine (f1.set (one_RInj _) (k := (n - 1) / 2 + 1) (by omega) (by simp) ?_).mono ?_
    · rw [f1.get' hIB]; simp only [hA]; rw [perm10, if_neg (by omega)]; congr 4; omega
    · intro k hk _; omega
  · refine f1.mono ?_
    intro k hk _; omega

omit [CLib] in
theorem ro10Pre_fill (hn : 0 < n) (I B : Ptr) (st : State) (hIB : I.blk ≠ B.blk) :
    Fill st.mem st.next B 1 n ((fun (x : ℕ → ℝ) j => (-1) ^ perm10 n j * x (perm10 n j)) fun j => st.mem (I + (j : ℤ) * is)) (fun _ => True) (ro10Pre n is I B st) := by
  unfold ro10Pre
  set A : ℕ → ℝ := ((fun (x : ℕ → ℝ) j => (-1) ^ perm10 n j * x (perm10 n j)) fun j => st.mem (I + (j : ℤ) * is)) with hA
  have f0 := (Fill.start st B 1 n A).set (one_RInj _) (k := 0) (by omega) (p := B) (by simp [ptr_add_zero]) (v := st.mem I) (by
    simp only [hA]; rw [perm10, if_pos (by omega)]; simp [ptr_add_zero])
  have odd : ∀ m : ℕ, m % 2 = 1 → (-1 : ℝ) ^ m = -1 := fun m h => Odd.neg_one_pow (Nat.odd_iff.2 h)
  have evn : ∀ m : ℕ, m % 2 = 0 → (-1 : ℝ) ^ m = 1 := fun m h => Even.neg_one_pow (Nat.even_iff.2 h)
  have f1 := Fill.loop (S := fun i k => k ≤ i ∨ n - i ≤ k) (N := (n - 1) / 2) (f := fun i0 st =>
    let i := i0 + 1
    let k := i + i
    let u := -st.mem (I + ((k - 1 : ℕ) : ℤ) * is)
    let v := st.mem (I + (k : ℤ) * is)
    (st.set (B + ((n - i : ℕ) : ℤ)) u).set (B + (i : ℤ)) v) (f0.mono (by intro k hk h; right; omega)) (by
      intro i hi s hs
      dsimp only
      rw [hs.get' hIB, hs.get' hIB]
      refine ((hs.set (one_RInj _) (k := n - (i + 1)) (by omega) (by simp) ?_).set (one_RInj _) (k := i + 1) (by omega) (by simp) ?_).mono ?_
      · simp only [hA]; rw [show perm10 n (n - (i + 1)) = i + 1 + (i + 1) - 1 by rw [perm10, if_neg (by omega)]; omega, odd _ (by omega)]; ring
      · simp only [hA]; rw [show perm10 n (i + 1) = i + 1 + (i + 1) by rw [perm10, if_pos (by omega)]; omega, evn _ (by omega)]; ring
      · intro k hk h; omega)
  dsimp only at f1 ⊢
  split_ifs with h
  · refine (f1.set (one_RInj _) (k := (n - 1) / 2 + 1) (by omega) (by simp) ?_).mono ?_
    · rw [f1.get' hIB]; simp only [hA]; rw [show perm10 n ((n - 1) / 2 + 1) = n - 1 by rw [perm10, if_neg (by omega)]; omega, odd _ (by omega)]; ring
    · intro k hk _; omega
  · refine f1.mono ?_
    intro k hk _; omega

omit [CLib] in
theorem re10Post_fill (hn : 0 < n) (hW : ∀ i < n / 2 + 1, W (2 * i) = Real.cos (Real.pi * i / (2 * n)) ∧ W (2 * i + 1) = Real.sin (Real.pi * i / (2 * n)))
    (ho : RInj os n) (B O : Ptr) (st : State) (hIB : B.blk ≠ O.blk) :
    Fill st.mem st.next O os n (z10 n fun j => st.mem (B + (j : ℤ))) (fun _ => True) (re10Post W n os B O st) := by
  unfold re10Post
  set A : ℕ → ℝ := z10 n fun j => st.mem (B + (j : ℤ)) with hA
  have f0 := (Fill.start st O os n A).set ho (k := 0) (by omega) (p := O) (by simp [ptr_add_zero]) (v := 2 * st.mem B) (by
    simp [hA, z10, ptr_add_zero])
  have f1 := Fill.loop (S := fun i k => k ≤ i ∨ n - i ≤ k) (N := (n - 1) / 2) (f := fun i0 st =>
    let i := i0 + 1
    let a := 2 * st.mem (B + (i : ℤ))
    let b := 2 * st.mem (B + ((n - i : ℕ) : ℤ))
    let wa := W (2 * i)
    let wb := W (2 * i + 1)
    (st.set (O + (i : ℤ) * os) (wa * a + wb * b)).set (O + ((n - i : ℕ) : ℤ) * os) (wb * a - wa * b)) (f0.mono (by intro k hk h; right; omega)) (by
      intro i hi s hs
      dsimp only
      rw [hs.get' hIB, hs.get' hIB, (hW (i + 1) (by omega)).1, (hW (i + 1) (by omega)).2]
      refine ((hs.set ho (k := i + 1) (by omega) rfl ?_).set ho (k := n - (i + 1)) (by omega) rfl ?_).mono ?_
      · simp only [hA]; rw [z10, if_neg (by omega), if_pos (by omega)]
      · simp only [hA]; rw [z10, if_neg (by omega), if_neg (by omega), if_neg (by omega), show n - (n - (i + 1)) = i + 1 by omega]
      · intro k hk h; omega)
  dsimp only at f1 ⊢
  split_ifs with h
  · refine (f1.set ho (k := (n - 1) / 2 + 1) (by omega) rfl ?_).mono ?_
    · rw [f1.get' hIB, (hW _ (by omega)).1]; simp only [hA]; rw [z10, if_neg (by omega), if_neg (by omega), if_pos (by omega)]
    · intro k hk _; omega
  · refine f1.mono ?_
    intro k hk _; omega

omit [CLib] in
theorem ro10Post_fill (hn : 0 < n) (hW : ∀ i < n / 2 + 1, W (2 * i) = Real.cos (Real.pi * i / (2 * n)) ∧ W (2 * i + 1) = Real.sin (Real.pi * i / (2 * n)))
    (ho : RInj os n) (B O : Ptr) (st : State) (hIB : B.blk ≠ O.blk) :
    Fill st.mem st.next O os n ((fun y k => z10 n y (n - 1 - k)) fun j => st.mem (B + (j : ℤ))) (fun _ => True) (ro10Post W n os B O st) := by
  unfold ro10Post
  set A : ℕ → ℝ := (fun y k => z10 n y (n - 1 - k)) fun j => st.mem (B + (j : ℤ)) with hA
  have f0 := (Fill.start st O os n A).set ho (k := n - 1) (by omega) (p := O + ((n - 1 : ℕ) : ℤ) * os) rfl (v := 2 * st.mem B) (by
    simp [hA, z10, ptr_add_zero])
  have f1 := Fill.loop (S := fun i k => k < i ∨ n - 1 - i ≤ k) (N := (n - 1) / 2) (f := fun i0 st =>
    let i := i0 + 1
    let a := 2 * st.mem (B + (i : ℤ))
    let b := 2 * st.mem (B + ((n - i : ℕ) : ℤ))
    let wa := W (2 * i)
    let wb := W (2 * i + 1)
    (st.set (O + ((n - 1 - i : ℕ) : ℤ) * os) (wa * a + wb * b)).set (O + ((i - 1 : ℕ) : ℤ) * os) (wb * a - wa * b)) (f0.mono (by intro k hk h; right; omega)) (by
      intro i hi s hs
      dsimp only
      rw [hs.get' hIB, hs.get' hIB, (hW (i + 1) (by omega)).1, (hW (i + 1) (by omega)).2]
      refine ((hs.set ho (k := n - 1 - (i + 1)) (by omega) rfl ?_).set ho (k := i + 1 - 1) (by omega) rfl ?_).mono ?_
      · simp only [hA]; rw [show n - 1 - (n - 1 - (i + 1)) = i + 1 by omega, z10, if_neg (by omega), if_pos (by omega)]
      · simp only [hA]; rw [show n - 1 - (i + 1 - 1) = n - (i + 1) by omega, z10, if_neg (by omega), if_neg (by omega), if_neg (by omega), show n - (n - (i + 1)) = i + 1 by omega]
      · intro k hk h; omega)
  dsimp only at f1 ⊢
  split_ifs with h
  · refine (f1.set ho (k := (n - 1) / 2 + 1 - 1) (by omega) rfl ?_).mono ?_
    · rw [f1.get' hIB, (hW _ (by omega)).1]; simp only [hA]
      rw [show n - 1 - ((n - 1) / 2 + 1 - 1) = (n - 1) / 2 + 1 by omega, z10, if_neg (by omega), if_neg (by omega), if_pos (by omega)]
    · intro k hk _; omega
  · refine f1.mono ?_
    intro k hk _; omega

omit [CLib] in
theorem a01_hi {x : ℕ → ℝ} {i : ℕ} (h0 : 0 < i) (h : i < n) :
    a01 n x (n - i) = Real.cos (Real.pi * i / (2 * n)) * (x i + x (n - i)) - Real.sin (Real.pi * i / (2 * n)) * (x i - x (n - i)) := by
  have hn' : (n : ℝ) ≠ 0 := by exact_mod_cast (show n ≠ 0 by omega)
  rw [a01, if_neg (by omega), show n - (n - i) = i by omega]
  have a3 : Real.cos (Real.pi * ((n - i : ℕ) : ℝ) / (2 * n)) = Real.sin (Real.pi * i / (2 * n)) := by
    rw [← Real.cos_pi_div_two_sub]; congr 1; rw [Nat.cast_sub h.le]; field_simp
  have a4 : Real.sin (Real.pi * ((n - i : ℕ) : ℝ) / (2 * n)) = Real.cos (Real.pi * i / (2 * n)) := by
    rw [← Real.sin_pi_div_two_sub]; congr 1; rw [Nat.cast_sub h.le]; field_simp
  rw [a3, a4]; ring

omit [CLib] in
theorem re01Pre_fill (hn : 0 < n) (hW : ∀ i < n / 2 + 1, W (2 * i) = Real.cos (Real.pi * i / (2 * n)) ∧ W (2 * i + 1) = Real.sin (Real.pi * i / (2 * n)))
    (I B : Ptr) (st : State) (hIB : I.blk ≠ B.blk) :
    Fill st.mem st.next B 1 n (a01 n fun j => st.mem (I + (j : ℤ) * is)) (fun _ => True) (re01Pre W n is I B st) := by
  unfold re01Pre
  set x : ℕ → ℝ := fun j => st.mem (I + (j : ℤ) * is) with hx
  have f0 := (Fill.start st B 1 n (a01 n x)).set (one_RInj _) (k := 0) (by omega) (p := B) (by simp [ptr_add_zero]) (v := st.mem I) (by
    simp [a01, hx, ptr_add_zero])
  have f1 := Fill.loop (S := fun i k => k ≤ i ∨ n - i ≤ k) (N := (n - 1) / 2) (f := fun i0 st =>
    let i := i0 + 1
    let a := st.mem (I + (i : ℤ) * is)
    let b := st.mem (I + ((n - i : ℕ) : ℤ) * is)
    let apb := a + b
    let amb := a - b
    let wa := W (2 * i)
    let wb := W (2 * i + 1)
    (st.set (B + (i : ℤ)) (wa * amb + wb * apb)).set (B + ((n - i : ℕ) : ℤ)) (wa * apb - wb * amb)) (f0.mono (by intro k hk h; right; omega)) (by
      intro i hi s hs
      dsimp only
      rw [hs.get' hIB, hs.get' hIB, (hW (i + 1) (by omega)).1, (hW (i + 1) (by omega)).2]
      refine ((hs.set (one_RInj _) (k := i + 1) (by omega) (by simp) ?_).set (one_RInj _) (k := n - (i + 1)) (by omega) (by simp) ?_).mono ?_
      · rw [a01, if_neg (by omega)]
      · rw [a01_hi (by omega) (by omega)]
      · intro k hk h; omega)
  dsimp only at f1 ⊢
  split_ifs with h
  · refine (f1.set (one_RInj _) (k := (n - 1) / 2 + 1) (by omega) (by simp) ?_).mono ?_
    · rw [f1.get' hIB, (hW _ (by omega)).1, a01, if_neg (by omega), ← pi_quarter h (by omega), ← h]; ring
    · intro k hk _; omega
  · refine f1.mono ?_
    intro k hk _; omega

omit [CLib] in
theorem ro01Pre_fill (hn : 0 < n) (hW : ∀ i < n / 2 + 1, W (2 * i) = Real.cos (Real.pi * i / (2 * n)) ∧ W (2 * i + 1) = Real.sin (Real.pi * i / (2 * n)))
    (I B : Ptr) (st : State) (hIB : I.blk ≠ B.blk) :
    Fill st.mem st.next B 1 n ((fun x => a01 n fun l => x (n - 1 - l)) fun j : ℕ => st.mem (I + (j : ℤ) * is)) (fun _ => True) (ro01Pre W n is I B st) := by
  unfold ro01Pre
  dsimp only
  set x : ℕ → ℝ := fun l => st.mem (I + ((n - 1 - l : ℕ) : ℤ) * is) with hx
  have f0 := (Fill.start st B 1 n (a01 n x)).set (one_RInj _) (k := 0) (by omega) (p := B) (by simp [ptr_add_zero]) (v := st.mem (I + ((n - 1 : ℕ) : ℤ) * is)) (by
    simp [a01, hx])
  have f1 := Fill.loop (S := fun i k => k ≤ i ∨ n - i ≤ k) (N := (n - 1) / 2) (f := fun i0 st =>
    let i := i0 + 1
    let a := st.mem (I + ((n - 1 - i : ℕ) : ℤ) * is)
    let b := st.mem (I + ((i - 1 : ℕ) : ℤ) * is)
    let apb := a + b
    let amb := a - b
    let wa := W (2 * i)
    let wb := W (2 * i + 1)
    (st.set (B + (i : ℤ)) (wa * amb + wb * apb)).set (B + ((n - i : ℕ) : ℤ)) (wa * apb - wb * amb)) (f0.mono (by intro k hk h; right; omega)) (by
      intro i hi s hs
      dsimp only
      rw [hs.get' hIB, hs.get' hIB, (hW (i + 1) (by omega)).1, (hW (i + 1) (by omega)).2]
      have ex : st.mem (I + ((i + 1 - 1 : ℕ) : ℤ) * is) = x (n - (i + 1)) := by simp only [hx]; congr 4; omega
      rw [ex]
      refine ((hs.set (one_RInj _) (k := i + 1) (by omega) (by simp) ?_).set (one_RInj _) (k := n - (i + 1)) (by omega) (by simp) ?_).mono ?_
      · rw [a01, if_neg (by omega)]
      · rw [a01_hi (by omega) (by omega)]
      · intro k hk h; omega)
  dsimp only at f1 ⊢
  split_ifs with h
  · refine (f1.set (one_RInj _) (k := (n - 1) / 2 + 1) (by omega) (by simp) ?_).mono ?_
    · have ex : st.mem (I + (((n - 1) / 2 + 1 - 1 : ℕ) : ℤ) * is) = x ((n - 1) / 2 + 1) := by simp only [hx]; congr 4; omega
      rw [f1.get' hIB, (hW _ (by omega)).1, a01, if_neg (by omega), ← pi_quarter h (by omega), ← h, ex]; ring
    · intro k hk _; omega
  · refine f1.mono ?_
    intro k hk _; omega

omit [CLib] in
theorem re01Post_fill (hn : 0 < n) (ho : RInj os n) (B O : Ptr) (st : State) (hIB : B.blk ≠ O.blk) :
    Fill st.mem st.next O os n (z01 n fun j => st.mem (B + (j : ℤ))) (fun _ => True) (re01Post n os B O st) := by
  unfold re01Post
  set A : ℕ → ℝ := z01 n fun j => st.mem (B + (j : ℤ)) with hA
  have f0 := (Fill.start st O os n A).set ho (k := 0) (by omega) (p := O) (by simp [ptr_add_zero]) (v := st.mem B) (by
    simp [hA, z01, ptr_add_zero])
  have f1 := Fill.loop (S := fun i k => k ≤ 2 * i) (N := (n - 1) / 2) (f := fun i0 st =>
    let i := i0 + 1
    let a := st.mem (B + (i : ℤ))
    let b := st.mem (B + ((n - i : ℕ) : ℤ))
    let k := i + i
    (st.set (O + ((k - 1 : ℕ) : ℤ) * os) (a - b)).set (O + (k : ℤ) * os) (a + b)) (f0.mono (by intro k hk h; right; omega)) (by
      intro i hi s hs
      dsimp only
      rw [hs.get' hIB, hs.get' hIB]
      refine ((hs.set ho (k := i + 1 + (i + 1) - 1) (by omega) rfl ?_).set ho (k := i + 1 + (i + 1)) (by omega) rfl ?_).mono ?_
      · simp only [hA]
        rw [z01, if_neg (by omega), if_neg (by omega), if_neg (by omega), show (i + 1 + (i + 1) - 1 + 1) / 2 = i + 1 by omega]
      · simp only [hA]; rw [z01, if_neg (by omega), if_pos (by omega), show (i + 1 + (i + 1)) / 2 = i + 1 by omega]
      · intro k hk h; omega)
  dsimp only at f1 ⊢
  split_ifs with h
  · refine (f1.set ho (k := n - 1) (by omega) rfl ?_).mono ?_
    · rw [f1.get' hIB]; simp only [hA]; rw [z01, if_neg (by omega), if_neg (by omega), if_pos (by omega)]; congr 3; omega
    · intro k hk _; omega
  · refine f1.mono ?_
    intro k hk _; omega

omit [CLib] in
theorem ro01Post_fill (hn : 0 < n) (ho : RInj os n) (B O : Ptr) (st : State) (hIB : B.blk ≠ O.blk) :
    Fill st.mem st.next O os n ((fun y k => (-1) ^ k * z01 n y k) fun j => st.mem (B + (j : ℤ))) (fun _ => True) (ro01Post n os B O st) := by
  unfold ro01Post
  set A : ℕ → ℝ := (fun y k => (-1) ^ k * z01 n y k) fun j => st.mem (B + (j : ℤ)) with hA
  have odd : ∀ m : ℕ, m % 2 = 1 → (-1 : ℝ) ^ m = -1 := fun m h => Odd.neg_one_pow (Nat.odd_iff.2 h)
  have evn : ∀ m : ℕ, m % 2 = 0 → (-1 : ℝ) ^ m = 1 := fun m h => Even.neg_one_pow (Nat.even_iff.2 h)
  have f0 := (Fill.start st O os n A).set ho (k := 0) (by omega) (p := O) (by simp [ptr_add_zero]) (v := st.mem B) (by
    simp [hA, z01, ptr_add_zero])
  have f1 := Fill.loop (S := fun i k => k ≤ 2 * i) (N := (n - 1) / 2) (f := fun i0 st =>
    let i := i0 + 1
    let a := st.mem (B + (i : ℤ))
    let b := st.mem (B + ((n - i : ℕ) : ℤ))
    let k := i + i
    (st.set (O + ((k - 1 : ℕ) : ℤ) * os) (b - a)).set (O + (k : ℤ) * os) (a + b)) (f0.mono (by intro k hk h; right; omega)) (by
      intro i hi s hs
      dsimp only
      rw [hs.get' hIB, hs.get' hIB]
      refine ((hs.set ho (k := i + 1 + (i + 1) - 1) (by omega) rfl ?_).set ho (k := i + 1 + (i + 1)) (by omega) rfl ?_).mono ?_
      · simp only [hA]
        rw [z01, if_neg (by omega), if_neg (by omega), if_neg (by omega), show (i + 1 + (i + 1) - 1 + 1) / 2 = i + 1 by omega, odd _ (by omega)]
        ring
      · simp only [hA]; rw [z01, if_neg (by omega), if_pos (by omega), show (i + 1 + (i + 1)) / 2 = i + 1 by omega, evn _ (by omega)]
        ring
      · intro k hk h; omega)
  dsimp only at f1 ⊢
  split_ifs with h
  · refine (f1.set ho (k := n - 1) (by omega) rfl ?_).mono ?_
    · rw [f1.get' hIB]; simp only [hA]
      rw [z01, if_neg (by omega), if_neg (by omega), if_pos (by omega), odd _ (by omega), show (n - 1 + 1) / 2 = (n - 1) / 2 + 1 by omega]
      ring
    · intro k hk _; omega
  · refine f1.mono ?_
    intro k hk _; omega

end

theorem reodft010_sound {cexp : ℕ → ℤ → ℝ × ℝ} (hc : ExactCexp cexp) (taste : Taste) : (reodft010 cexp taste).Sound := by
  apply rdftSolver_sound
  intro p fl hk
  obtain ⟨hpk, ha, hpv, hin⟩ := kosher_rdft hk
  show Mk.Good fl _ (match p.sz, p.vecsz with | [(d, kd)], some v => _ | _, _ => _)
  split
  rotate_left
  · exact good_nada
  rename_i d kd v hsz hv
  cases ht : tornk1 v with
  | none => exact good_nada
  | some vd =>
  dsimp only
  split_ifs with h
  swap
  · exact good_nada
  obtain ⟨hkd, -⟩ := h
  have hstr : Straight p := straight_of_kosher hk hsz (by rcases hkd with rfl | rfl | rfl | rfl <;> rfl)
  have hposv : ∀ e ∈ v, 0 < e.n := hpv v hv
  have hn0 : 0 < d.n := hpk (d, kd) (by simp [hsz])
  apply good_need
  · exact kosher_mkproblemRdft (by simpa [PosK] using hn0) (fun h => absurd rfl h)
  intro cld hcld
  obtain ⟨hG, -⟩ := sound_mkproblemRdft (by simpa [PosK] using hn0) hcld
  rw [decide_eq_true rfl] at hG
  apply good_ret
  refine soundRdft (by simp [hv]) ?_
  rw [hsz, hv]
  obtain ⟨n, is, os⟩ := d
  simp only at *
  refine vloop_ok ht hposv (fun hi => hstr (by simpa using hi) v hv) ?_
  have hW : ∀ i < n / 2 + 1, W010 cexp n (2 * i) = Real.cos (Real.pi * i / (2 * n)) ∧ W010 cexp n (2 * i + 1) = Real.sin (Real.pi * i / (2 * n)) :=
    fun i hi => W010_spec hc hn0 hi
  rcases hkd with rfl | rfl | rfl | rfl
  · exact R1_prepost (K := .REDFT01) (re01Pre_fill hn0 hW) hG.rank1R (post_fill (re01Post_fill hn0)) (fun x y hy k hk => redft01_math hn0 x y hy hk)
  · exact R1_prepost (K := .REDFT10) (re10Pre_fill hn0) hG.rank1R (post_fill (re10Post_fill hn0 hW)) (fun x y hy k hk => redft10_math hn0 x y hy hk)
  · exact R1_prepost (K := .RODFT01) (ro01Pre_fill hn0 hW) hG.rank1R (post_fill (ro01Post_fill hn0)) (fun x y hy k hk => rodft01_math hn0 x y hy hk)
  · exact R1_prepost (K := .RODFT10) (ro10Pre_fill hn0) hG.rank1R (post_fill (ro10Post_fill hn0 hW)) (fun x y hy k hk => rodft10_math hn0 x y hy hk)

end FFTW.Reodft
