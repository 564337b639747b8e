import Verif.Proofs.Writes

/-! index vectors of distinct locations -/

namespace FFTW.Spec
open Tensor

theorem offs_cons (n : ℕ) (s : ℤ) (l : List (ℕ × ℤ)) :
    offs ((n, s) :: l) = (Multiset.range n).bind fun i : ℕ => (offs l).map fun x => (i : ℤ) * s + x := by
  simp only [offs, nsmul_eq_mul]

theorem mem_offs_cons {n : ℕ} {s : ℤ} {l : List (ℕ × ℤ)} {x : ℤ} : x ∈ offs ((n, s) :: l) ↔ ∃ i : ℕ, i < n ∧ ∃ y ∈ offs l, x = (i : ℤ) * s + y := by
  rw [offs_cons]
  simp only [Multiset.mem_bind, Multiset.mem_map, Multiset.mem_range]
  constructor
  · rintro ⟨i, hi, y, hy, rfl⟩; exact ⟨i, hi, y, hy, rfl⟩
  · rintro ⟨i, hi, y, hy, rfl⟩; exact ⟨i, hi, y, hy, rfl⟩

theorem mem_offs_nil {x : ℤ} : x ∈ offs ([] : List (ℕ × ℤ)) ↔ x = 0 := by simp [offs]

theorem offs_cons_inj {n : ℕ} {s : ℤ} {l : List (ℕ × ℤ)} (h : (offs ((n, s) :: l)).Nodup) {i i' : ℕ} (hi : i < n) (hi' : i' < n)
    {y y' : ℤ} (hy : y ∈ offs l) (hy' : y' ∈ offs l) (he : (i : ℤ) * s + y = i' * s + y') : i = i' ∧ y = y' := by
  rw [offs_cons] at h
  obtain ⟨_, h3⟩ := pieces_nodup (s := fun i : ℕ => (i : ℤ) * s) (S := fun _ => offs l) h
  by_cases e : i = i'
  · subst e; exact ⟨rfl, by linarith⟩
  · exact absurd he (h3 i hi i' hi' e y hy y' hy')

theorem offs_cons_nodup {n : ℕ} {s : ℤ} {l : List (ℕ × ℤ)} (h : (offs ((n, s) :: l)).Nodup) (hn : 0 < n) : (offs l).Nodup := by
  rw [offs_cons] at h
  exact (pieces_nodup (s := fun i : ℕ => (i : ℤ) * s) (S := fun _ => offs l) h).1 0 hn

theorem mem_offs3 {a b c : ℕ} {s t u x : ℤ} : x ∈ offs [(a, s), (b, t), (c, u)] ↔ ∃ i j k : ℕ, i < a ∧ j < b ∧ k < c ∧ x = (i : ℤ) * s + (j : ℤ) * t + (k : ℤ) * u := by
  simp only [mem_offs_cons, mem_offs_nil]
  constructor
  · rintro ⟨i, hi, y, ⟨j, hj, z, ⟨k, hk, w, rfl, rfl⟩, rfl⟩, rfl⟩
    exact ⟨i, j, k, hi, hj, hk, by ring⟩
  · rintro ⟨i, j, k, hi, hj, hk, rfl⟩
    exact ⟨i, hi, _, ⟨j, hj, _, ⟨k, hk, 0, rfl, rfl⟩, rfl⟩, by ring⟩

theorem mem_offs4 {a b c d : ℕ} {s t u v x : ℤ} : x ∈ offs [(a, s), (b, t), (c, u), (d, v)] ↔
    ∃ i j k l : ℕ, i < a ∧ j < b ∧ k < c ∧ l < d ∧ x = (i : ℤ) * s + ((j : ℤ) * t + (k : ℤ) * u + (l : ℤ) * v) := by
  rw [mem_offs_cons]
  constructor
  · rintro ⟨i, hi, y, hy, rfl⟩
    obtain ⟨j, k, l, hj, hk, hl, rfl⟩ := mem_offs3.1 hy
    exact ⟨i, j, k, l, hi, hj, hk, hl, rfl⟩
  · rintro ⟨i, j, k, l, hi, hj, hk, hl, rfl⟩
    exact ⟨i, hi, _, mem_offs3.2 ⟨j, k, l, hj, hk, hl, rfl⟩, rfl⟩

theorem offs3_inj {a b c : ℕ} {s t u : ℤ} (h : (offs [(a, s), (b, t), (c, u)]).Nodup) {i j k i' j' k' : ℕ}
    (hi : i < a) (hj : j < b) (hk : k < c) (hi' : i' < a) (hj' : j' < b) (hk' : k' < c)
    (e : (i : ℤ) * s + (j : ℤ) * t + (k : ℤ) * u = (i' : ℤ) * s + (j' : ℤ) * t + (k' : ℤ) * u) : i = i' ∧ j = j' ∧ k = k' := by
  obtain ⟨e1, e2⟩ := offs_cons_inj h hi hi' (mem_offs2.2 ⟨j, hj, k, hk, rfl⟩) (mem_offs2.2 ⟨j', hj', k', hk', rfl⟩) (by linarith)
  obtain ⟨e3, e4⟩ := nodup2_inj (offs_cons_nodup h (by omega)) hj hj' hk hk' e2
  exact ⟨e1, e3, e4⟩

theorem offs4_inj {a b c d : ℕ} {s t u v : ℤ} (h : (offs [(a, s), (b, t), (c, u), (d, v)]).Nodup) {i j k l i' j' k' l' : ℕ}
    (hi : i < a) (hj : j < b) (hk : k < c) (hl : l < d) (hi' : i' < a) (hj' : j' < b) (hk' : k' < c) (hl' : l' < d)
    (e : (i : ℤ) * s + ((j : ℤ) * t + (k : ℤ) * u + (l : ℤ) * v) = (i' : ℤ) * s + ((j' : ℤ) * t + (k' : ℤ) * u + (l' : ℤ) * v)) :
    i = i' ∧ j = j' ∧ k = k' ∧ l = l' := by
  obtain ⟨e1, e2⟩ := offs_cons_inj h hi hi' (mem_offs3.2 ⟨j, k, l, hj, hk, hl, rfl⟩) (mem_offs3.2 ⟨j', k', l', hj', hk', hl', rfl⟩) e
  obtain ⟨e3, e4, e5⟩ := offs3_inj (offs_cons_nodup h (by omega)) hj hk hl hj' hk' hl' e2
  exact ⟨e1, e3, e4, e5⟩

end FFTW.Spec

namespace FFTW
open Tensor Spec

/-! ### loops as lists of element updates -/

/-- one element is replaced by a function of itself -/
def upd1 (P : Ptr) (δ : ℤ) (e : ℤ × (ℂ → ℂ)) (st : State) : State := put P δ e.1 (e.2 (val st.mem P δ e.1)) st

/-- several, first to last -/
def upds (P : Ptr) (δ : ℤ) (L : List (ℤ × (ℂ → ℂ))) (st : State) : State := L.foldl (fun st e => upd1 P δ e st) st

/-- elements at the offsets of `S` do not overlap -/
def SInj (δ : ℤ) (S : ℤ → Prop) : Prop :=
  ∀ (c c' : ℕ) (o o' : ℤ), c < 2 → c' < 2 → S o → S o' → (c : ℤ) * δ + o = (c' : ℤ) * δ + o' → c = c' ∧ o = o'

theorem put_val_S {P : Ptr} {δ : ℤ} {S : ℤ → Prop} (h : SInj δ S) {o o' : ℤ} (ho : S o) (ho' : S o') (z : ℂ) (st : State) :
    (val (put P δ o z st).mem P δ o' : ℂ) = if o' = o then z else val st.mem P δ o' := by
  by_cases e : o' = o
  · subst e
    rw [if_pos rfl, val_c]
    apply Complex.ext
    · show (put _ _ _ _ _).mem _ = _
      rw [put, State.set_mem_ne]
      · simp
      · intro e
        rw [ptr_add_right_inj] at e
        exact absurd (h 0 1 o' o' (by omega) (by omega) ho ho (by push_cast at e ⊢; linarith)).1 (by omega)
    · show (put _ _ _ _ _).mem _ = _
      rw [put]; simp
  · rw [if_neg e]
    apply val_congr
    intro c hc
    change c < 2 at hc
    rw [put_mem_other]
    · intro e'
      rw [ptr_add_right_inj] at e'
      exact e (h c 0 o' o hc (by omega) ho' ho (by push_cast at e' ⊢; linarith)).2
    · intro e'
      rw [ptr_add_right_inj] at e'
      exact e (h c 1 o' o hc (by omega) ho' ho (by push_cast at e' ⊢; linarith)).2

theorem put_frame_S {P : Ptr} {δ o : ℤ} (z : ℂ) (st : State) {W : Ptr → Prop} (hW : ∀ c : ℕ, c < 2 → W (P + ((c : ℤ) * δ + o))) : Frame st (put P δ o z st) W := by
  refine ⟨le_of_eq rfl, ?_⟩
  intro q _ hq
  apply put_mem_other
  · rintro rfl; exact hq (by simpa using hW 0 (by omega))
  · rintro rfl; exact hq (by simpa using hW 1 (by omega))

theorem upds_spec {P : Ptr} {δ : ℤ} {S : ℤ → Prop} (h : SInj δ S) {W : Ptr → Prop} (hW : ∀ o, S o → ∀ c : ℕ, c < 2 → W (P + ((c : ℤ) * δ + o))) :
    ∀ (L : List (ℤ × (ℂ → ℂ))) (_ : ∀ e ∈ L, S e.1) (_ : (L.map Prod.fst).Nodup) (st : State),
    Frame st (upds P δ L st) W ∧ (upds P δ L st).next = st.next ∧
    (∀ o, S o → o ∉ L.map Prod.fst → (val (upds P δ L st).mem P δ o : ℂ) = val st.mem P δ o) ∧
    ∀ e ∈ L, (val (upds P δ L st).mem P δ e.1 : ℂ) = e.2 (val st.mem P δ e.1) := by
  intro L
  induction L with
  | nil => intro _ _ st; exact ⟨Frame.refl _ _, rfl, fun _ _ _ => rfl, by simp⟩
  | cons e L ih =>
    intro hS hn st
    simp only [List.map_cons, List.nodup_cons] at hn
    obtain ⟨i1, i0, i2, i3⟩ := ih (fun e he => hS e (by simp [he])) hn.2 (upd1 P δ e st)
    have hse := hS e (by simp)
    change Frame st (upds P δ L (upd1 P δ e st)) W ∧ _
    have hu : ∀ o, S o → (val (upd1 P δ e st).mem P δ o : ℂ) = if o = e.1 then e.2 (val st.mem P δ e.1) else val st.mem P δ o := by
      intro o ho
      rw [upd1, put_val_S h hse ho]
    refine ⟨(put_frame_S _ _ (hW _ hse)).trans i1 (fun _ _ h => h) fun _ _ h => h, i0, ?_, ?_⟩
    · intro o ho hoL
      simp only [List.map_cons, List.mem_cons, not_or] at hoL
      change val (upds P δ L (upd1 P δ e st)).mem P δ o = _
      rw [i2 o ho hoL.2, hu o ho, if_neg hoL.1]
    · intro e' he'
      change val (upds P δ L (upd1 P δ e st)).mem P δ e'.1 = _
      rcases List.mem_cons.1 he' with rfl | he'
      · rw [i2 _ hse hn.1, hu _ hse, if_pos rfl]
      · have hne : e'.1 ≠ e.1 := by
          intro e2; exact hn.1 (e2 ▸ List.mem_map_of_mem he')
        rw [i3 e' he', hu _ (hS e' (by simp [he'])), if_neg hne]

theorem forN_foldl (n : ℕ) (f : ℕ → State → State) (st : State) : forN n f st = (List.range n).foldl (fun s i => f i s) st := by
  induction n with
  | zero => rfl
  | succ n ih => rw [forN_succ, ih, List.range_succ, List.foldl_append]; rfl

theorem forN_upds (n : ℕ) (P : Ptr) (δ : ℤ) (L : ℕ → List (ℤ × (ℂ → ℂ))) (st : State) :
    forN n (fun i st => upds P δ (L i) st) st = upds P δ ((List.range n).flatMap L) st := by
  induction n with
  | zero => rfl
  | succ n ih => rw [forN_succ, ih, List.range_succ, List.flatMap_append]; simp [upds, List.foldl_append]

end FFTW
