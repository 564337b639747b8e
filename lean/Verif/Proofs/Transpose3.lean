import Verif.Proofs.Tr3Cut
import Verif.Proofs.Toms2

/-! # The three solvers of rdft/vrank3-transpose.c are sound -/

namespace FFTW.RdftS
open Tensor DftS Spec

variable [CLib]

omit [CLib] in
theorem posK_nil : PosK [] := by intro e he; simp at he

omit [CLib] in
theorem ptr_add_blk (p : Ptr) (z : ℤ) : (p + z).blk = p.blk := rfl

/-- arrays in different blocks do not overlap -/
theorem kosher_vec {vec : Tensor} {I O : Ptr} (h : I = O ∨ I.blk ≠ O.blk) : Kosher (mkproblemRdft [] vec I O) := by
  refine kosher_mkproblemRdft posK_nil (fun hne => ?_) (by rintro _ _ ⟨e, he, _⟩; simp at he)
  intro a _ b _ e
  rcases h with h | h
  · exact hne h
  · have h2 := congrArg Ptr.blk e
    exact h h2

theorem good_needIf {b : Prop} [Decidable b] {p : Problem} {fl : Flags} {k : Plan → Mk (Option Plan)} {P : Plan → Prop} (hk : Kosher p)
    (h : ∀ c, (b → Sound fl.nd p c) → (k c).Good fl fun r => ∀ pl, r = some pl → P pl) : (Mk.needIf b p k).Good fl fun r => ∀ pl, r = some pl → P pl := by
  unfold Mk.needIf
  split
  · rename_i hb
    apply good_need hk
    intro c hc
    rw [modify_default] at hc
    exact h c fun _ => hc
  · rename_i hb
    exact h _ fun hb' => absurd hb' hb

omit [CLib] in
theorem cutNs_le {n ms : ℕ} : ∀ (ns : ℕ) (s : ℕ × ℕ × ℕ) (M : ℕ), ns ≤ n → s.2.1 ≤ n → ms ≤ M → s.2.2 ≤ M →
    (cutNs n ms ns s).2.1 ≤ n ∧ (cutNs n ms ns s).2.2 ≤ M := by
  intro ns
  induction ns with
  | zero => intro s M _ h1 _ h2; exact ⟨h1, h2⟩
  | succ ns ih =>
    intro s M hn h1 hm h2
    rw [cutNs]
    split
    · dsimp only
      split
      · split
        · exact ⟨hn, hm⟩
        · exact ih _ M (by omega) hn hm hm
      · exact ih _ M (by omega) h1 hm h2
    · exact ⟨h1, h2⟩

omit [CLib] in
theorem cutMs_le {n m : ℕ} : ∀ (ms : ℕ) (s : ℕ × ℕ × ℕ), ms ≤ m → s.2.1 ≤ n → s.2.2 ≤ m → (cutMs n m ms s).2.1 ≤ n ∧ (cutMs n m ms s).2.2 ≤ m := by
  intro ms
  induction ms with
  | zero => intro s _ h1 h2; exact ⟨h1, h2⟩
  | succ ms ih =>
    intro s hm h1 h2
    have h := cutNs_le (ms := ms + 1) n s m (le_refl _) h1 hm h2
    rw [cutMs]
    split
    · dsimp only
      split
      · exact h
      · exact ih _ (by omega) h.1 h.2
    · exact ⟨h1, h2⟩

omit [CLib] in
theorem cutSize_le (n m vl : ℕ) : (cutSize n m vl).1 ≤ n ∧ (cutSize n m vl).2 ≤ m := by
  unfold cutSize
  split
  · exact ⟨min_le_left _ _, min_le_right _ _⟩
  · exact cutMs_le m _ (le_refl _) (le_refl _) (le_refl _)

omit [CLib] in
theorem planBuf_ne (I : Ptr) : I.blk ≠ (planBuf [I]).blk := by
  have := planBuf_blk (l := [I]) (p := I) (by simp)
  omega

/-- a sub-plan for a problem between two blocks -/
theorem sub_oop {nd : Bool} {vec : Tensor} {I O : Ptr} {c : Plan} (h : Sound nd (mkproblemRdft [] vec I O) c) (hb : I.blk ≠ O.blk) :
    GOK rK [] vec 0 0 false nd c.rdftApply := by
  have := (sound_mkproblemRdft posK_nil h).1
  rwa [decide_eq_false (fun e => hb (congrArg Ptr.blk e))] at this

theorem sub_inpl {nd : Bool} {vec : Tensor} {I : Ptr} {c : Plan} (h : Sound nd (mkproblemRdft [] vec I I) c) :
    GOK rK [] vec 0 0 true nd c.rdftApply ∧ ins (locT ℝ 0 0 ([] : List (Dim × RKind)) vec) = outs (locT ℝ 0 0 ([] : List (Dim × RKind)) vec) := by
  obtain ⟨h1, h2⟩ := sound_mkproblemRdft posK_nil h
  rw [decide_eq_true rfl] at h1
  exact ⟨h1, h2 rfl⟩

/-- the plan made by each algorithm transposes -/
theorem Tr3.mk_good {alg : Tr3} {n m vl : ℕ} (hn : 1 < n) (hm : 1 < m) (I : Ptr) (fl : Flags) :
    (alg.mk n m vl I).Good fl fun r => ∀ pl, r = some pl → ∃ f, pl = .rdft (fun I _ => f I) ∧ Seg (n * m * vl) (trn n m vl) f := by
  have hb := planBuf_ne I
  cases alg with
  | toms513 =>
    apply good_ret
    exact ⟨fun I => applyToms n m vl I ⟨0, 0⟩, rfl, applyToms_seg hn hm _⟩
  | cut =>
    unfold Tr3.mk mkCut
    dsimp only
    obtain ⟨h1, h2⟩ := cutSize_le n m vl
    refine good_needIf (kosher_vec (Or.inr hb)) fun c1 hc1 => ?_
    apply good_need (kosher_vec (Or.inl rfl))
    intro c2 hc2
    rw [modify_default] at hc2
    refine good_needIf (kosher_vec (Or.inr hb.symm)) fun c3 hc3 => ?_
    apply good_ret
    obtain ⟨g2, e2⟩ := sub_inpl hc2
    exact ⟨fun I => applyCut n m (cutSize n m vl).1 (cutSize n m vl).2 vl c1 c2 c3 I ⟨0, 0⟩, rfl, applyCut_seg h1 h2 (fun h => sub_oop (hc1 h) hb) g2 e2 (fun h => sub_oop (hc3 h) hb.symm) _⟩
  | gcd =>
    have hd : 0 < gcdC n m := by rw [gcdC_eq _ _ (by omega)]; exact Nat.gcd_pos_of_pos_left _ (by omega)
    have d1 : gcdC n m ∣ n := by rw [gcdC_eq _ _ (by omega)]; exact Nat.gcd_dvd_left _ _
    have d2 : gcdC n m ∣ m := by rw [gcdC_eq _ _ (by omega)]; exact Nat.gcd_dvd_right _ _
    generalize hdd : gcdC n m = d at *
    obtain ⟨n', rfl⟩ := d1
    obtain ⟨m', rfl⟩ := d2
    unfold Tr3.mk mkGcd
    rw [hdd, Nat.mul_div_cancel_left _ hd, Nat.mul_div_cancel_left _ hd]
    have hn' : 0 < n' := Nat.pos_of_ne_zero (by rintro rfl; simp at hn)
    have hm' : 0 < m' := Nat.pos_of_ne_zero (by rintro rfl; simp at hm)
    refine good_needIf (kosher_vec (Or.inr hb)) fun c1 hc1 => ?_
    apply good_need (kosher_vec (Or.inl rfl))
    intro c2 hc2
    rw [modify_default] at hc2
    refine good_needIf (kosher_vec (Or.inr hb)) fun c3 hc3 => ?_
    apply good_ret
    refine ⟨fun I => applyGcd n' m' d vl c1 c2 c3 I ⟨0, 0⟩, rfl, ?_⟩
    obtain ⟨g2, e2⟩ := sub_inpl hc2
    have t2 : (T3 d d (n' * m' * vl)) = [⟨d, ((d * n' * m' * vl : ℕ) : ℤ), ((n' * m' * vl : ℕ) : ℤ)⟩, ⟨d, ((n' * m' * vl : ℕ) : ℤ), ((d * n' * m' * vl : ℕ) : ℤ)⟩, ⟨n' * m' * vl, 1, 1⟩] := by
      unfold T3
      rw [show d * (n' * m' * vl) = d * n' * m' * vl by ring]
    have t1 : (T3 n' d (m' * vl)) = [⟨n', ((d * m' * vl : ℕ) : ℤ), ((m' * vl : ℕ) : ℤ)⟩, ⟨d, ((m' * vl : ℕ) : ℤ), ((n' * m' * vl : ℕ) : ℤ)⟩, ⟨m' * vl, 1, 1⟩] := by
      unfold T3
      rw [show d * (m' * vl) = d * m' * vl by ring, show n' * (m' * vl) = n' * m' * vl by ring]
    have key := applyGcd_seg (n := n') (m := m') (d := d) (vl := vl) (nd1 := fl.nd) (nd2 := fl.nd) (nd3 := fl.nd) (cld1 := c1) (cld2 := c2) (cld3 := c3)
      (by rw [t1]; exact fun h => sub_oop (hc1 h) hb) (by rw [t2]; exact g2) (by rw [t2]; exact e2) (fun h => sub_oop (hc3 h) hb) hn' hm' ⟨0, 0⟩
    rw [Nat.mul_comm d n', Nat.mul_comm d m']
    exact key

omit [CLib] in
/-- what an entry of `dimOrders` is: an ordering of the dimensions -/
theorem dimOrders_perm {v : List Dim} {t : Dim × Dim × Option Dim} (h : t ∈ dimOrders v) : (t.1 :: t.2.1 :: t.2.2.toList).Perm v := by
  unfold dimOrders at h
  split at h
  · rename_i x y
    simp only [List.mem_cons, List.not_mem_nil, or_false] at h
    rcases h with rfl | rfl
    · exact List.Perm.refl _
    · exact List.Perm.swap _ _ _
  · rename_i x y z
    simp only [List.mem_cons, List.not_mem_nil, or_false] at h
    rcases h with rfl | rfl | rfl | rfl | rfl | rfl
    · exact List.Perm.refl _
    · exact List.Perm.cons _ (List.Perm.swap _ _ _)
    · exact List.Perm.swap _ _ _
    · exact (List.Perm.cons y (List.Perm.swap x z [])).trans (List.Perm.swap x y [z])
    · exact (List.Perm.swap x z [y]).trans (List.Perm.cons x (List.Perm.swap y z []))
    · exact ((List.Perm.cons z (List.Perm.swap x y [])).trans (List.Perm.swap x z [y])).trans (List.Perm.cons x (List.Perm.swap y z []))
  · simp at h

omit [CLib] in
theorem Tr3.applicable_iff {alg : Tr3} {a b : Dim} {vl : ℕ} {vs : ℤ} (h : alg.applicable a b vl vs = true) :
    vs = 1 ∧ b.is = vl ∧ a.os = vl ∧ a.is = (b.n : ℤ) * vl ∧ b.os = (a.n : ℤ) * vl := by
  have key : a.n ≠ b.n ∧ ntupleTransposable a b vl vs = true := by
    cases alg <;> simp only [Tr3.applicable, Bool.and_eq_true, decide_eq_true_eq] at h
    · exact ⟨h.1.1, h.2⟩
    · exact ⟨h.1.1, h.2⟩
    · exact h
  obtain ⟨hne, hk⟩ := key
  simp only [ntupleTransposable, Bool.and_eq_true, Bool.or_eq_true, decide_eq_true_eq] at hk
  obtain ⟨⟨⟨h1, h2⟩, h3⟩, h4 | h4⟩ := hk
  · exact absurd h4.1.1.1 hne
  · exact ⟨h1, h2, h3, h4.1, h4.2⟩

theorem vrank3Transpose_sound (alg : Tr3) (taste : Taste) : (vrank3Transpose alg taste).Sound := by
  apply rdftSolver_sound
  intro p fl hk
  have hbig := hk.1.2.2.2
  split
  · exact good_nada
  rename_i v hv
  split
  rotate_left
  · exact good_nada
  rename_i happ
  obtain ⟨hIO, hsz, -⟩ := happ
  have hsz' : p.sz = [] := List.length_eq_zero_iff.1 hsz
  split
  · exact good_nada
  rename_i t ht
  split
  rotate_left
  · exact good_nada
  rename_i ha
  have hmem := List.mem_of_find?_eq_some ht
  have hsat := List.find?_some ht
  have hperm := dimOrders_perm hmem
  obtain ⟨a, b, c⟩ := t
  dsimp only at *
  have hn : 1 < a.n := hbig v hv a (hperm.subset (by simp))
  have hm : 1 < b.n := hbig v hv b (hperm.subset (by simp))
  refine (Tr3.mk_good hn hm p.I fl).mono ?_
  rintro r hr pl rfl
  obtain ⟨f, rfl, hf⟩ := hr pl rfl
  refine soundRdft (by simp [hv]) ?_
  rw [hsz', decide_eq_true hIO, hv]
  obtain ⟨e1, e2, e3, e4, e5⟩ := Tr3.applicable_iff ha
  have hp : pairs (some v) = pairs (some (T3 a.n b.n (vecLen c))) := by
    rw [← pairs_perm hperm]
    have ea : a = ⟨a.n, ((b.n * vecLen c : ℕ) : ℤ), ((vecLen c : ℕ) : ℤ)⟩ := by
      cases a; simp only [Dim.mk.injEq, true_and]; push_cast; exact ⟨e4, e3⟩
    have eb : b = ⟨b.n, ((vecLen c : ℕ) : ℤ), ((a.n * vecLen c : ℕ) : ℤ)⟩ := by
      cases b; simp only [Dim.mk.injEq, true_and]; push_cast; exact ⟨e2, e5⟩
    unfold T3
    rw [← ea, ← eb]
    cases c with
    | none =>
      have hp : [(⟨1, 1, 1⟩ : Dim), a, b].Perm [a, b, ⟨1, 1, 1⟩] := List.perm_append_comm (l₁ := [(⟨1, 1, 1⟩ : Dim)]) (l₂ := [a, b])
      refine Eq.trans ?_ (pairs_perm hp)
      rw [pairs_cons_one (d := ⟨1, 1, 1⟩) rfl]; rfl
    | some c =>
      have : c = ⟨c.n, 1, 1⟩ := by
        simp only [sameStr, Bool.and_eq_true, decide_eq_true_eq] at hsat
        simp only [vecStr] at e1
        cases c; simp only [Dim.mk.injEq, true_and] at *; exact ⟨e1, hsat.1 ▸ e1⟩
      rw [show vecLen (some c) = c.n from rfl, ← this]; rfl
  exact (GOK_seg hf).vec_congr hp

end FFTW.RdftS
