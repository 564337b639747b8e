import Verif.Proofs.Copy

/-! # Square transposition -/

namespace FFTW.Copy
open Spec

/-- the exchange of the tuples at `a` and `b` -/
def swp (vl : ℕ) (a b : Ptr) : Set (Ptr × Ptr) := tuple a b vl ∪ tuple b a vl

/-- the tuples at `a` and `b` do not overlap -/
def Apart (vl : ℕ) (a b : Ptr) : Prop := ∀ v v' : ℕ, v < vl → v' < vl → a + (v : ℤ) ≠ b + (v' : ℤ)

theorem does_swap1 (L N : ℕ) (a b : Ptr) : Does L N {(a, b), (b, a)} (swap1 a b) := fun st _ => by
  refine ⟨le_refl _, ?_, ?_⟩
  · rintro e (rfl | rfl)
    · simp only [swap1]
      by_cases e : b = a
      · subst e; simp
      · rw [State.set_mem_ne _ e, State.set_mem_same]
    · simp [swap1]
  · intro q _ hq
    have h1 := hq _ (Or.inl rfl)
    have h2 := hq _ (Or.inr rfl)
    dsimp only at h1 h2
    simp only [swap1]; rw [State.set_mem_ne _ h2, State.set_mem_ne _ h1]

theorem does_swap2 (L N : ℕ) (a b : Ptr) (h : Apart 2 a b) : Does L N (swp 2 a b) (swap2 a b) := fun st _ => by
  have h00 : a ≠ b := by simpa using h 0 0 (by omega) (by omega)
  have h01 : a ≠ b + (1 : ℤ) := by simpa using h 0 1 (by omega) (by omega)
  have h10 : a + (1 : ℤ) ≠ b := by simpa using h 1 0 (by omega) (by omega)
  have h11 : a + (1 : ℤ) ≠ b + (1 : ℤ) := by simpa using h 1 1 (by omega) (by omega)
  have ha : a ≠ a + (1 : ℤ) := ptr_self_ne (by norm_num)
  have hb : b ≠ b + (1 : ℤ) := ptr_self_ne (by norm_num)
  refine ⟨le_refl _, ?_, ?_⟩
  · rintro e (he | he)
    · rcases mem_tuple_two.1 he with rfl | rfl <;> simp only [swap2]
      · rw [State.set_mem_ne _ h10.symm, State.set_mem_ne _ h00.symm, State.set_mem_ne _ hb, State.set_mem_same]
      · rw [State.set_mem_ne _ h11.symm, State.set_mem_ne _ h01.symm, State.set_mem_same]
    · rcases mem_tuple_two.1 he with rfl | rfl <;> simp only [swap2]
      · rw [State.set_mem_ne _ ha, State.set_mem_same]
      · rw [State.set_mem_same]
  · intro q _ hq
    have q1 := hq _ (Or.inl (mem_tuple_two.2 (Or.inl rfl)))
    have q2 := hq _ (Or.inl (mem_tuple_two.2 (Or.inr rfl)))
    have q3 := hq _ (Or.inr (mem_tuple_two.2 (Or.inl rfl)))
    have q4 := hq _ (Or.inr (mem_tuple_two.2 (Or.inr rfl)))
    simp only [swap2]
    rw [State.set_mem_ne _ q4, State.set_mem_ne _ q3, State.set_mem_ne _ q2, State.set_mem_ne _ q1]

theorem does_swapV {L N vl : ℕ} {a b : Ptr} (h : Apart vl a b) (ha : a.blk < N) (hb : b.blk < N) : Does L N (swp vl a b) (swapV vl a b) := by
  unfold swapV
  intro st hL
  split
  · rename_i e; subst e
    have : swp 1 a b = {(a, b), (b, a)} := by rw [swp, tuple_one, tuple_one]; rfl
    rw [this]; exact does_swap1 L N a b st hL
  split
  · rename_i e; subst e; exact does_swap2 L N a b h st hL
  · have e : iUn vl (fun v => {(a + (v : ℤ), b + (v : ℤ)), (b + (v : ℤ), a + (v : ℤ))}) = swp vl a b := by
      ext e; constructor
      · rintro ⟨v, hv, (rfl | rfl)⟩
        · exact Or.inl ⟨v, hv, rfl⟩
        · exact Or.inr ⟨v, hv, rfl⟩
      · rintro (⟨v, hv, rfl⟩ | ⟨v, hv, rfl⟩)
        · exact ⟨v, hv, Or.inl rfl⟩
        · exact ⟨v, hv, Or.inr rfl⟩
    rw [← e]
    refine Does.forN (fun v _ => does_swap1 L N _ _) ?_ ?_ st hL
    · intro v v' hv hv' x hx y hy
      have g1 := h v v' (by omega) hv'
      have g2 := h v' v hv' (by omega)
      have g3 : a + (v : ℤ) ≠ a + (v' : ℤ) := ptr_ne_add (by omega)
      have g4 : b + (v : ℤ) ≠ b + (v' : ℤ) := ptr_ne_add (by omega)
      rcases hx with rfl | rfl <;> rcases hy with rfl | rfl <;> dsimp only
      · exact ⟨g2, fun e => absurd e g4⟩
      · exact ⟨g4.symm, fun e => absurd e.symm g2⟩
      · exact ⟨g3.symm, fun e => absurd e g1⟩
      · exact ⟨g1.symm, fun e => absurd e g3⟩
    · rintro _ ⟨v, hv, (rfl | rfl)⟩
      · exact ⟨ha, hb⟩
      · exact ⟨hb, ha⟩

section
variable (I : Ptr) (s0 s1 : ℤ) (vl : ℕ)

/-- the exchange of elements `(i, j)` and `(j, i)` -/
def tcell (i j : ℕ) : Set (Ptr × Ptr) := swp vl (I + ((j : ℤ) * s0 + (i : ℤ) * s1)) (I + ((j : ℤ) * s1 + (i : ℤ) * s0))

/-- all off-diagonal elements of the diagonal block `lo .. hi-1` -/
def offd (lo hi : ℕ) : Set (Ptr × Ptr) := {e | ∃ i j, lo ≤ i ∧ i < j ∧ j < hi ∧ e ∈ tcell I s0 s1 vl i j}
end

variable {I : Ptr} {s0 s1 : ℤ} {vl n : ℕ}

theorem mem_tcell {i j : ℕ} {e : Ptr × Ptr} : e ∈ tcell I s0 s1 vl i j ↔ ∃ v < vl,
    e = (I + ((j : ℤ) * s0 + (i : ℤ) * s1 + (v : ℤ)), I + ((i : ℤ) * s0 + (j : ℤ) * s1 + (v : ℤ))) ∨ e = (I + ((i : ℤ) * s0 + (j : ℤ) * s1 + (v : ℤ)), I + ((j : ℤ) * s0 + (i : ℤ) * s1 + (v : ℤ))) := by
  rw [tcell, swp]
  constructor
  · rintro (⟨v, hv, rfl⟩ | ⟨v, hv, rfl⟩)
    · exact ⟨v, hv, Or.inl (by rw [Ptr.add_add, Ptr.add_add, add_comm ((j : ℤ) * s1)])⟩
    · exact ⟨v, hv, Or.inr (by rw [Ptr.add_add, Ptr.add_add, add_comm ((j : ℤ) * s1)])⟩
  · rintro ⟨v, hv, (rfl | rfl)⟩
    · exact Or.inl ⟨v, hv, (by rw [Ptr.add_add, Ptr.add_add, add_comm ((j : ℤ) * s1)])⟩
    · exact Or.inr ⟨v, hv, (by rw [Ptr.add_add, Ptr.add_add, add_comm ((j : ℤ) * s1)])⟩

theorem tcell_indep (h : Inj2 n s0 n s1 vl) {i j i' j' : ℕ} (hij : i < j) (hj : j < n) (hij' : i' < j') (hj' : j' < n) (hne : (i, j) ≠ (i', j')) :
    Indep (tcell I s0 s1 vl i j) (tcell I s0 s1 vl i' j') := by
  have key : ∀ x y z x' y' z' : ℕ, x < n → y < n → z < vl → x' < n → y' < n → z' < vl → ¬ (x = x' ∧ y = y') →
      I + ((x' : ℤ) * s0 + (y' : ℤ) * s1 + (z' : ℤ)) ≠ I + ((x : ℤ) * s0 + (y : ℤ) * s1 + (z : ℤ)) := by
    intro x y z x' y' z' h1 h2 h3 h4 h5 h6 hn e
    obtain ⟨a, b, _⟩ := h _ _ _ _ _ _ h1 h2 h3 h4 h5 h6 (Ptr.add_inj.1 e).symm
    exact hn ⟨a, b⟩
  simp only [ne_eq, Prod.mk.injEq] at hne
  intro e he e' he'
  obtain ⟨v, hv, he⟩ := mem_tcell.1 he
  obtain ⟨v', hv', he'⟩ := mem_tcell.1 he'
  rcases he with rfl | rfl <;> rcases he' with rfl | rfl <;> dsimp only
  · exact ⟨key i j v j' i' v' (by omega) hj hv hj' (by omega) hv' (by omega), fun e => absurd e.symm (key i j v i' j' v' (by omega) hj hv (by omega) hj' hv' (by omega))⟩
  · exact ⟨key i j v i' j' v' (by omega) hj hv (by omega) hj' hv' (by omega), fun e => absurd e.symm (key i j v j' i' v' (by omega) hj hv hj' (by omega) hv' (by omega))⟩
  · exact ⟨key j i v j' i' v' hj (by omega) hv hj' (by omega) hv' (by omega), fun e => absurd e.symm (key j i v i' j' v' hj (by omega) hv (by omega) hj' hv' (by omega))⟩
  · exact ⟨key j i v i' j' v' hj (by omega) hv (by omega) hj' hv' (by omega), fun e => absurd e.symm (key j i v j' i' v' hj (by omega) hv hj' (by omega) hv' (by omega))⟩

theorem tcell_below {N i j : ℕ} (hI : I.blk < N) : Below N (tcell I s0 s1 vl i j) := by
  intro e he
  obtain ⟨v, hv, (rfl | rfl)⟩ := mem_tcell.1 he <;> exact ⟨hI, hI⟩

theorem offd_below {N lo hi : ℕ} (hI : I.blk < N) : Below N (offd I s0 s1 vl lo hi) := by
  rintro e ⟨i, j, _, _, _, he⟩; exact tcell_below hI e he

theorem rect_tcell_below {N a b c d : ℕ} (hI : I.blk < N) : Below N (rect (tcell I s0 s1 vl) a b c d) := by
  rintro e ⟨i, j, _, _, _, _, he⟩; exact tcell_below hI e he

theorem apart_cell (h : Inj2 n s0 n s1 vl) {i j : ℕ} (hij : i < j) (hj : j < n) :
    Apart vl (I + ((j : ℤ) * s0 + (i : ℤ) * s1)) (I + ((j : ℤ) * s1 + (i : ℤ) * s0)) := by
  intro v v' hv hv' e
  rw [Ptr.add_add, Ptr.add_add, Ptr.add_inj] at e
  have := h j i v i j v' hj (by omega) hv (by omega) hj hv' (by linarith)
  omega

/-- the diagonal needs no work -/
theorem does_mapT {L N : ℕ} {f : State → State} (h : Inj2 n s0 n s1 vl) (hI : I.blk < N) (hf : Does L N (offd I s0 s1 vl 0 n) f) : Does L N (mapT I n s0 s1 vl) f := by
  have hsub : offd I s0 s1 vl 0 n ⊆ mapT I n s0 s1 vl := by
    rintro e ⟨i, j, _, hij, hj, he⟩
    obtain ⟨v, hv, (rfl | rfl)⟩ := mem_tcell.1 he
    · exact ⟨j, i, v, hj, by omega, hv, by rw [add_comm ((j : ℤ) * s1)]⟩
    · exact ⟨i, j, v, by omega, hj, hv, by rw [add_comm ((i : ℤ) * s1)]⟩
  intro st hL
  have a := hf st hL
  refine ⟨a.next, ?_, fun q hq hne => a.other q hq fun e he => hne e (hsub he)⟩
  rintro _ ⟨i0, i1, v, h0, h1, hv, rfl⟩
  rcases lt_trichotomy i0 i1 with hlt | rfl | hlt
  · refine a.copied _ ⟨i0, i1, by omega, hlt, h1, mem_tcell.2 ⟨v, hv, Or.inr ?_⟩⟩
    rw [add_comm ((i0 : ℤ) * s1)]
  · dsimp only
    rw [show (i0 : ℤ) * s1 + (i0 : ℤ) * s0 = (i0 : ℤ) * s0 + (i0 : ℤ) * s1 by ring]
    refine a.other _ hI ?_
    rintro e ⟨i, j, _, hij, hj, he⟩
    obtain ⟨v', hv', (rfl | rfl)⟩ := mem_tcell.1 he
    · intro e; have := h _ _ _ _ _ _ h0 h0 hv (by omega : i < n) hj hv' (Ptr.add_inj.1 e); omega
    · intro e; have := h _ _ _ _ _ _ h0 h0 hv hj (by omega : i < n) hv' (Ptr.add_inj.1 e); omega
  · refine a.copied _ ⟨i1, i0, by omega, hlt, h0, mem_tcell.2 ⟨v, hv, Or.inl ?_⟩⟩
    rw [add_comm ((i0 : ℤ) * s1)]

theorem does_transpose {L N : ℕ} (h : Inj2 n s0 n s1 vl) (hI : I.blk < N) : Does L N (mapT I n s0 s1 vl) (transpose I n s0 s1 vl) := by
  apply does_mapT h hI
  have e : iUn (n - 1) (fun k => iUn (k + 1) fun i0 => tcell I s0 s1 vl i0 (k + 1)) = offd I s0 s1 vl 0 n := by
    ext e; constructor
    · rintro ⟨k, hk, i, hi, he⟩; exact ⟨i, k + 1, by omega, by omega, by omega, he⟩
    · rintro ⟨i, j, _, hij, hj, he⟩
      obtain ⟨k, rfl⟩ : ∃ k, j = k + 1 := ⟨j - 1, by omega⟩
      exact ⟨k, by omega, i, by omega, he⟩
  have hb := offd_below (s0 := s0) (s1 := s1) (vl := vl) (lo := 0) (hi := n) hI
  rw [← e] at hb ⊢
  unfold transpose
  refine Does.forN (fun k hk => Does.forN (fun i hi => ?_) (fun i i' g1 g2 => ?_) (hb.mono fun e he => ⟨k, hk, he⟩)) (fun k k' g1 g2 => ?_) hb
  · have := does_swapV (L := L) (N := N) (apart_cell (I := I) h (show i < k + 1 by omega) (by omega)) hI hI
    push_cast at this
    exact this
  · exact tcell_indep h (by omega) (by omega) (by omega) (by omega) (by simp; omega)
  · rintro x ⟨i, hi, hx⟩ y ⟨i', hi', hy⟩
    exact tcell_indep h (by omega : i < k + 1) (by omega) (by omega : i' < k' + 1) (by omega) (by simp; omega) x hx y hy

theorem does_trTile {L N a b c d : ℕ} (h : Inj2 n s0 n s1 vl) (hI : I.blk < N) (hbc : b ≤ c) (hd : d ≤ n) :
    Does L N (rect (tcell I s0 s1 vl) a b c d) (trTile s0 s1 vl I a b c d) := by
  have e : iUn (d - c) (fun k1 => iUn (b - a) fun k0 => tcell I s0 s1 vl (a + k0) (c + k1)) = rect (tcell I s0 s1 vl) a b c d := by
    ext e; constructor
    · rintro ⟨k1, h1, k0, h0, he⟩; exact ⟨a + k0, c + k1, by omega, by omega, by omega, by omega, he⟩
    · rintro ⟨i, j, g1, g2, g3, g4, he⟩
      obtain ⟨k0, rfl⟩ := Nat.exists_eq_add_of_le g1
      obtain ⟨k1, rfl⟩ := Nat.exists_eq_add_of_le g3
      exact ⟨k1, by omega, k0, by omega, he⟩
  have hb := rect_tcell_below (s0 := s0) (s1 := s1) (vl := vl) (a := a) (b := b) (c := c) (d := d) hI
  rw [← e] at hb ⊢
  unfold trTile
  refine Does.forN (fun k1 h1 => Does.forN (fun k0 h0 => ?_) (fun i i' g1 g2 => ?_) (hb.mono fun e he => ⟨k1, h1, he⟩)) (fun k k' g1 g2 => ?_) hb
  · exact does_swapV (L := L) (N := N) (apart_cell (I := I) h (show a + k0 < c + k1 by omega) (by omega)) hI hI
  · exact tcell_indep h (by omega) (by omega) (by omega) (by omega) (by simp; omega)
  · rintro x ⟨i, hi, hx⟩ y ⟨i', hi', hy⟩
    exact tcell_indep h (by omega : a + i < c + k) (by omega) (by omega : a + i' < c + k') (by omega) (by simp; omega) x hx y hy

theorem tcell_shift (I : Ptr) (s0 s1 : ℤ) (vl lo i j : ℕ) : tcell (I + (lo : ℤ) * (s0 + s1)) s0 s1 vl i j = tcell I s0 s1 vl (lo + i) (lo + j) := by
  rw [tcell, tcell, Ptr.add_add, Ptr.add_add]
  congr 2 <;> push_cast <;> ring

theorem rect_tcell_shift (I : Ptr) (s0 s1 : ℤ) (vl lo a b c d : ℕ) :
    rect (tcell (I + (lo : ℤ) * (s0 + s1)) s0 s1 vl) a b c d = rect (tcell I s0 s1 vl) (lo + a) (lo + b) (lo + c) (lo + d) := by
  ext e; constructor
  · rintro ⟨i, j, g1, g2, g3, g4, he⟩; exact ⟨lo + i, lo + j, by omega, by omega, by omega, by omega, by rwa [tcell_shift] at he⟩
  · rintro ⟨i, j, g1, g2, g3, g4, he⟩
    obtain ⟨i, rfl⟩ := Nat.exists_eq_add_of_le (show lo ≤ i by omega)
    obtain ⟨j, rfl⟩ := Nat.exists_eq_add_of_le (show lo ≤ j by omega)
    exact ⟨i, j, by omega, by omega, by omega, by omega, by rwa [tcell_shift]⟩

theorem Inj2.shift (h : Inj2 n s0 n s1 vl) {k : ℕ} (hk : k ≤ n) : Inj2 k s0 k s1 vl := fun _ _ _ _ _ _ h1 h2 h3 h4 h5 h6 e =>
  h _ _ _ _ _ _ (by omega) (by omega) h3 (by omega) (by omega) h6 e

theorem offd_split (I : Ptr) (s0 s1 : ℤ) (vl lo n2 k : ℕ) (h : n2 ≤ k) :
    offd I s0 s1 vl lo (lo + k) = (rect (tcell I s0 s1 vl) lo (lo + n2) (lo + n2) (lo + k) ∪ offd I s0 s1 vl lo (lo + n2)) ∪ offd I s0 s1 vl (lo + n2) (lo + k) := by
  ext e; constructor
  · rintro ⟨i, j, g1, g2, g3, he⟩
    by_cases h1 : j < lo + n2
    · exact Or.inl (Or.inr ⟨i, j, g1, g2, h1, he⟩)
    · by_cases h2 : i < lo + n2
      · exact Or.inl (Or.inl ⟨i, j, g1, h2, by omega, g3, he⟩)
      · exact Or.inr ⟨i, j, by omega, g2, g3, he⟩
  · rintro ((⟨i, j, g1, g2, g3, g4, he⟩ | ⟨i, j, g1, g2, g3, he⟩) | ⟨i, j, g1, g2, g3, he⟩)
    · exact ⟨i, j, g1, by omega, g4, he⟩
    · exact ⟨i, j, g1, g2, by omega, he⟩
    · exact ⟨i, j, by omega, g2, g3, he⟩

theorem does_transposeRec {L N t : ℕ} {ht : 0 < t} {f : Ptr → ℕ → ℕ → ℕ → ℕ → State → State} (h : Inj2 n s0 n s1 vl) (hI : I.blk < N)
    (hf : ∀ lo a b c d, b ≤ c → lo + d ≤ n → b - a ≤ t → d - c ≤ t → Does L N (rect (tcell (I + (lo : ℤ) * (s0 + s1)) s0 s1 vl) a b c d) (f (I + (lo : ℤ) * (s0 + s1)) a b c d)) :
    ∀ k lo, lo + k ≤ n → Does L N (offd I s0 s1 vl lo (lo + k)) (transposeRec t ht f s0 s1 (I + (lo : ℤ) * (s0 + s1)) k) := by
  intro k
  induction k using Nat.strong_induction_on with
  | _ k ih =>
    intro lo hlo st hL
    rw [transposeRec]
    split
    · rename_i hk
      dsimp only
      set n2 := k / 2 with hn2
      rw [offd_split I s0 s1 vl lo n2 k (by omega)]
      have i1 : Does L N (rect (tcell I s0 s1 vl) lo (lo + n2) (lo + n2) (lo + k)) (tile2d t ht (f (I + (lo : ℤ) * (s0 + s1))) 0 n2 n2 k) := by
        have := rect_tcell_shift I s0 s1 vl lo 0 n2 n2 k
        rw [add_zero] at this
        rw [← this]
        refine does_tile2d (fun a b c d g1 g2 g3 g4 g5 g6 => hf lo a b c d (by omega) (by omega) g5 g6) ?_ (rect_tcell_below hI)
        intro i j i' j' _ g1 g2 g3 _ g4 g5 g6 hne
        rw [tcell_shift, tcell_shift]
        refine tcell_indep h (by omega) (by omega) (by omega) (by omega) ?_
        simp only [ne_eq, Prod.mk.injEq] at hne ⊢
        omega
      have i2 := ih n2 (by omega) lo (by omega)
      have i3 := ih (k - n2) (by omega) (lo + n2) (by omega)
      rw [show lo + n2 + (k - n2) = lo + k by omega] at i3
      have ep : I + ((lo + n2 : ℕ) : ℤ) * (s0 + s1) = I + (lo : ℤ) * (s0 + s1) + (n2 : ℤ) * (s0 + s1) := by
        rw [Ptr.add_add]; congr 1; push_cast; ring
      rw [ep] at i3
      have j1 := Does.comp i1 i2 (by
        rintro x ⟨i, j, g1, g2, g3, g4, hx⟩ y ⟨i', j', g1', g2', g3', hy⟩
        exact tcell_indep h (by omega) (by omega) (by omega) (by omega) (by simp; omega) x hx y hy) (rect_tcell_below hI) (offd_below hI)
      exact Does.comp j1 i3 (by
        rintro x hx y ⟨i', j', g1', g2', g3', hy⟩
        rcases hx with ⟨i, j, g1, g2, g3, g4, hx⟩ | ⟨i, j, g1, g2, g3, hx⟩
        · exact tcell_indep h (by omega) (by omega) (by omega) (by omega) (by simp; omega) x hx y hy
        · exact tcell_indep h (by omega) (by omega) (by omega) (by omega) (by simp; omega) x hx y hy)
        (by rintro e (he | he)
            · exact rect_tcell_below hI e he
            · exact offd_below hI e he) (offd_below hI) st hL
    · rename_i hk
      have : offd I s0 s1 vl lo (lo + k) = ∅ := by
        ext e; constructor
        · rintro ⟨i, j, g1, g2, g3, he⟩; omega
        · rintro ⟨⟩
      rw [this]; exact does_id L N st hL

theorem does_transposeTiled {L N t : ℕ} {ht : 0 < t} (h : Inj2 n s0 n s1 vl) (hI : I.blk < N) : Does L N (mapT I n s0 s1 vl) (transposeTiled t ht I n s0 s1 vl) := by
  apply does_mapT h hI
  have := does_transposeRec (L := L) (ht := ht) (f := trTile s0 s1 vl) h hI (by
    intro lo a b c d hbc hd _ _
    exact does_trTile (n := n - lo) (h.shift (by omega)) hI hbc (by omega)) n 0 (by omega)
  simpa [transposeTiled] using this

theorem does_trTileBuf {L N a b c d : ℕ} {B0 B1 : Ptr} (h : Inj2 n s0 n s1 vl) (hI : I.blk < N) (hbc : b ≤ c) (hd : d ≤ n)
    (h0N : N ≤ B0.blk) (h01 : B0.blk < B1.blk) (h1L : B1.blk < L) :
    Does L N (rect (tcell I s0 s1 vl) a b c d) (trTileBuf B0 B1 s0 s1 vl I a b c d) := by
  intro st hL
  unfold trTileBuf
  dsimp only
  set A := I + ((a : ℤ) * s0 + (c : ℤ) * s1) with hA
  set B := I + ((a : ℤ) * s1 + (c : ℤ) * s0) with hB
  set w : ℤ := ((vl * (b - a) : ℕ) : ℤ) with hw
  have bA : A.blk = I.blk := rfl
  have bB : B.blk = I.blk := rfl
  have k1 := does_cpy2dCi (L := L) (N := L) (oop_to_buf (I := A) (B := B0) (n0 := b - a) (is0 := s0) (n1 := d - c) (is1 := s1) (vl := vl) (by omega)) (below_map2d (by omega) (by omega)) st hL
  set st1 := cpy2dCi A B0 (b - a) s0 vl (d - c) s1 w vl st with hst1
  have k2 := does_cpy2dCi (L := L) (N := L) (oop_to_buf (I := B) (B := B1) (n0 := b - a) (is0 := s1) (n1 := d - c) (is1 := s0) (vl := vl) (by omega)) (below_map2d (by omega) (by omega)) st1 (hL.trans k1.next)
  set st2 := cpy2dCi B B1 (b - a) s1 vl (d - c) s0 w vl st1 with hst2
  have oA : OutOfPlace (map2d B1 A (b - a) vl s0 (d - c) w s1 vl) := by
    refine ⟨?_, Inj2.func ?_⟩
    · rintro _ ⟨i0, i1, v, g0, g1, hv, rfl⟩ _ ⟨i0', i1', v', g0', g1', hv', rfl⟩ e
      have := congrArg Ptr.blk e; simp only [Ptr.add_blk] at this; omega
    · intro i0 i1 v i0' i1' v' g0 g1 g2 g3 g4 g5 e
      obtain ⟨r1, r2, r3⟩ := h (a + i0) (c + i1) v (a + i0') (c + i1') v' (by omega) (by omega) g2 (by omega) (by omega) g5 (by push_cast; linarith)
      omega
  have oB : OutOfPlace (map2d B0 B (b - a) vl s1 (d - c) w s0 vl) := by
    refine ⟨?_, Inj2.func ?_⟩
    · rintro _ ⟨i0, i1, v, g0, g1, hv, rfl⟩ _ ⟨i0', i1', v', g0', g1', hv', rfl⟩ e
      have := congrArg Ptr.blk e; simp only [Ptr.add_blk] at this; omega
    · intro i0 i1 v i0' i1' v' g0 g1 g2 g3 g4 g5 e
      obtain ⟨r1, r2, r3⟩ := h (c + i1) (a + i0) v (c + i1') (a + i0') v' (by omega) (by omega) g2 (by omega) (by omega) g5 (by push_cast; linarith)
      omega
  have k3 := does_cpy2dCo (L := L) (N := L) oA (below_map2d (by omega) (by omega)) st2 (hL.trans (k1.next.trans k2.next))
  set st3 := cpy2dCo B1 A (b - a) vl s0 (d - c) w s1 vl st2 with hst3
  have k4 := does_cpy2dCo (L := L) (N := L) oB (below_map2d (by omega) (by omega)) st3 (hL.trans (k1.next.trans (k2.next.trans k3.next)))
  set st4 := cpy2dCo B0 B (b - a) vl s1 (d - c) w s0 vl st3 with hst4
  refine ⟨k1.next.trans (k2.next.trans (k3.next.trans k4.next)), ?_, ?_⟩
  · rintro e ⟨i, j, g1, g2, g3, g4, he⟩
    obtain ⟨i, rfl⟩ := Nat.exists_eq_add_of_le g1
    obtain ⟨j, rfl⟩ := Nat.exists_eq_add_of_le g3
    obtain ⟨v, hv, he⟩ := mem_tcell.1 he
    have pA : I + (((a + i : ℕ) : ℤ) * s0 + ((c + j : ℕ) : ℤ) * s1 + (v : ℤ)) = A + ((i : ℤ) * s0 + (j : ℤ) * s1 + (v : ℤ)) := by
      rw [hA, Ptr.add_add]; congr 1; push_cast; ring
    have pB : I + (((c + j : ℕ) : ℤ) * s0 + ((a + i : ℕ) : ℤ) * s1 + (v : ℤ)) = B + ((i : ℤ) * s1 + (j : ℤ) * s0 + (v : ℤ)) := by
      rw [hB, Ptr.add_add]; congr 1; push_cast; ring
    rw [pA, pB] at he
    have m1 := k1.copied _ ⟨i, j, v, by omega, by omega, hv, rfl⟩
    have m2 := k2.copied _ ⟨i, j, v, by omega, by omega, hv, rfl⟩
    have m3 := k3.copied _ ⟨i, j, v, by omega, by omega, hv, rfl⟩
    have m4 := k4.copied _ ⟨i, j, v, by omega, by omega, hv, rfl⟩
    dsimp only at m1 m2 m3 m4
    have iA : Inj2 (b - a) s0 (d - c) s1 vl := by
      intro i0 i1 v i0' i1' v' g0 g1 g2 g3 g4 g5 e
      obtain ⟨r1, r2, r3⟩ := h (a + i0) (c + i1) v (a + i0') (c + i1') v' (by omega) (by omega) g2 (by omega) (by omega) g5 (by push_cast; linarith)
      omega
    have hAB : ∀ i0 i1 v i0' i1' v' : ℕ, i0 < b - a → i1 < d - c → v < vl → i0' < b - a → i1' < d - c → v' < vl →
        A + ((i0 : ℤ) * s0 + (i1 : ℤ) * s1 + (v : ℤ)) ≠ B + ((i0' : ℤ) * s1 + (i1' : ℤ) * s0 + (v' : ℤ)) := by
      intro i0 i1 v i0' i1' v' g0 g1 g2 g3 g4 g5 e
      rw [hA, hB, Ptr.add_add, Ptr.add_add, Ptr.add_inj] at e
      have := h (a + i0) (c + i1) v (c + i1') (a + i0') v' (by omega) (by omega) g2 (by omega) (by omega) g5 (by push_cast; linarith)
      omega
    rcases he with rfl | rfl <;> dsimp only
    · -- B goes to A
      have e4 : st4.mem (A + ((i : ℤ) * s0 + (j : ℤ) * s1 + (v : ℤ))) = st3.mem (A + ((i : ℤ) * s0 + (j : ℤ) * s1 + (v : ℤ))) := by
        refine k4.other _ (by simp only [Ptr.add_blk]; omega) ?_
        rintro _ ⟨i0', i1', v', g0', g1', hv', rfl⟩
        exact hAB i j v i0' i1' v' (by omega) (by omega) hv g0' g1' hv'
      have e1 : st1.mem (B + ((i : ℤ) * s1 + (j : ℤ) * s0 + (v : ℤ))) = st.mem (B + ((i : ℤ) * s1 + (j : ℤ) * s0 + (v : ℤ))) := by
        refine k1.other _ (by simp only [Ptr.add_blk]; omega) ?_
        rintro _ ⟨i0', i1', v', g0', g1', hv', rfl⟩ e
        have := congrArg Ptr.blk e; simp only [Ptr.add_blk] at this; omega
      rw [e4, m3, m2, e1]
    · have e3 : st3.mem (B0 + ((i : ℤ) * (vl : ℤ) + (j : ℤ) * w + (v : ℤ))) = st2.mem (B0 + ((i : ℤ) * (vl : ℤ) + (j : ℤ) * w + (v : ℤ))) := by
        refine k3.other _ (by simp only [Ptr.add_blk]; omega) ?_
        rintro _ ⟨i0', i1', v', g0', g1', hv', rfl⟩ e
        have := congrArg Ptr.blk e; simp only [Ptr.add_blk] at this; omega
      have e2 : st2.mem (B0 + ((i : ℤ) * (vl : ℤ) + (j : ℤ) * w + (v : ℤ))) = st1.mem (B0 + ((i : ℤ) * (vl : ℤ) + (j : ℤ) * w + (v : ℤ))) := by
        refine k2.other _ (by simp only [Ptr.add_blk]; omega) ?_
        rintro _ ⟨i0', i1', v', g0', g1', hv', rfl⟩ e
        have := congrArg Ptr.blk e; simp only [Ptr.add_blk] at this; omega
      rw [m4, e3, e2, m1]
  · intro q hq hne
    have nA : ∀ i0 i1 v : ℕ, i0 < b - a → i1 < d - c → v < vl → q ≠ A + ((i0 : ℤ) * s0 + (i1 : ℤ) * s1 + (v : ℤ)) := by
      intro i0 i1 v g0 g1 g2 e
      refine hne _ ⟨a + i0, c + i1, by omega, by omega, by omega, by omega, mem_tcell.2 ⟨v, g2, Or.inl rfl⟩⟩ ?_
      dsimp only; rw [e, hA, Ptr.add_add]; congr 1; push_cast; ring
    have nB : ∀ i0 i1 v : ℕ, i0 < b - a → i1 < d - c → v < vl → q ≠ B + ((i0 : ℤ) * s1 + (i1 : ℤ) * s0 + (v : ℤ)) := by
      intro i0 i1 v g0 g1 g2 e
      refine hne _ ⟨a + i0, c + i1, by omega, by omega, by omega, by omega, mem_tcell.2 ⟨v, g2, Or.inr rfl⟩⟩ ?_
      dsimp only; rw [e, hB, Ptr.add_add]; congr 1; push_cast; ring
    rw [k4.other q (by omega), k3.other q (by omega), k2.other q (by omega), k1.other q (by omega)]
    · rintro _ ⟨i0, i1, v, g0, g1, hv, rfl⟩ rfl
      simp only [Ptr.add_blk] at hq; omega
    · rintro _ ⟨i0, i1, v, g0, g1, hv, rfl⟩ rfl
      simp only [Ptr.add_blk] at hq; omega
    · rintro _ ⟨i0, i1, v, g0, g1, hv, rfl⟩
      exact nA i0 i1 v g0 g1 hv
    · rintro _ ⟨i0, i1, v, g0, g1, hv, rfl⟩
      exact nB i0 i1 v g0 g1 hv

theorem does_transposeTiledbuf {N t : ℕ} {ht : 0 < t} (h : Inj2 n s0 n s1 vl) (hI : I.blk < N) : Does N N (mapT I n s0 s1 vl) (transposeTiledbuf t ht I n s0 s1 vl) := by
  apply does_mapT h hI
  intro st hN
  have := does_transposeRec (L := st.malloc.malloc.next) (ht := ht) (f := trTileBuf st.fresh st.malloc.fresh s0 s1 vl) h hI (by
    intro lo a b c d hbc hd _ _
    exact does_trTileBuf (n := n - lo) (h.shift (by omega)) hI hbc (by omega) hN (by simp [State.fresh, State.malloc]) (by simp [State.fresh, State.malloc])) n 0 (by omega)
  have a := this st.malloc.malloc (le_refl _)
  simp only [Nat.cast_zero, zero_mul, Ptr.add_zero, zero_add] at a
  exact ⟨le_trans (by simp only [State.malloc]; omega) a.next, a.copied, a.other⟩

end FFTW.Copy
