import Verif.Spec.Interleave

/-! # Race-free threads: interleaving does not matter -/

namespace FFTW.Spec.Conc
variable {A X ι : Type} [DecidableEq ι]

theorem run_append (l l' : List (ι × Act A X)) (m : A → X) : run (l ++ l') m = run l' (run l m) := List.foldl_append

/-- a thread sees only its own accesses -/
theorem run_only {R W : ι → A → Prop} (hr : RaceFree R W) {l : List (ι × Act A X)} (hl : ∀ ia ∈ l, Confined (R ia.1) (W ia.1) ia.2) (m : A → X) (i : ι) :
    ∀ q, R i q ∨ W i q → run l m q = run (only i l) m q := by
  induction l using List.reverseRecOn with
  | nil => intro q _; rfl
  | append_singleton l ja ih =>
    obtain ⟨j, a⟩ := ja
    have ih' := ih fun ia h => hl ia (by simp [h])
    have ha := hl (j, a) (by simp)
    intro q hq
    rw [run_append]
    show a (run l m) q = _
    by_cases hji : j = i
    · subst hji
      have : only j (l ++ [(j, a)]) = only j l ++ [(j, a)] := by simp [only]
      rw [this, run_append]
      show _ = a (run (only j l) m) q
      by_cases hw : W j q
      · exact ha.dep _ _ ih' q hw
      · exact (ha.frame _ _ hw).trans ((ih' q hq).trans (ha.frame _ _ hw).symm)
    · have : only i (l ++ [(j, a)]) = only i l := by simp [only, hji]
      rw [this, ← ih' q hq]
      apply ha.frame
      intro hw
      obtain ⟨h1, h2⟩ := hr j i hji q hw
      rcases hq with h | h
      · exact h1 h
      · exact h2 h

theorem run_frame {R W : ι → A → Prop} {l : List (ι × Act A X)} (hl : ∀ ia ∈ l, Confined (R ia.1) (W ia.1) ia.2) (m : A → X) {q : A} (hq : ∀ i, ¬ W i q) :
    run l m q = m q := by
  induction l using List.reverseRecOn with
  | nil => rfl
  | append_singleton l ja ih =>
    rw [run_append]
    show ja.2 (run l m) q = _
    rw [(hl ja (by simp)).frame _ _ (hq _)]
    exact ih fun ia h => hl ia (by simp [h])

/-- two interleavings of the same threads have the same result -/
theorem run_eq {R W : ι → A → Prop} (hr : RaceFree R W) {l l' : List (ι × Act A X)} (hl : ∀ ia ∈ l, Confined (R ia.1) (W ia.1) ia.2)
    (hl' : ∀ ia ∈ l', Confined (R ia.1) (W ia.1) ia.2) (h : ∀ i, only i l = only i l') (m : A → X) : run l m = run l' m := by
  funext q
  by_cases hq : ∃ i, W i q
  · obtain ⟨i, hi⟩ := hq
    rw [run_only hr hl m i q (Or.inr hi), run_only hr hl' m i q (Or.inr hi), h i]
  · rw [run_frame hl m fun i hi => hq ⟨i, hi⟩, run_frame hl' m fun i hi => hq ⟨i, hi⟩]

theorem only_sequential (P : ℕ → List (Act A X)) (o : List ℕ) (ho : o.Nodup) (i : ℕ) :
    only i (sequential P o) = if i ∈ o then (P i).map fun a => (i, a) else [] := by
  induction o with
  | nil => rfl
  | cons j o ih =>
    obtain ⟨h1, h2⟩ := List.nodup_cons.1 ho
    have : sequential P (j :: o) = (P j).map (fun a => (j, a)) ++ sequential P o := by simp [sequential]
    rw [this]
    unfold only at ih ⊢
    rw [List.filter_append, ih h2]
    by_cases hij : j = i
    · subst hij
      simp [h1]
    · simp [hij, Ne.symm hij]
      

/-- any interleaving of `n` race-free threads equals running them one after the other, in any order -/
theorem run_sequential {n : ℕ} {R W : ℕ → A → Prop} (hr : ∀ i < n, ∀ j < n, i ≠ j → ∀ q, W i q → ¬ R j q ∧ ¬ W j q) {P : ℕ → List (Act A X)}
    (hP : ∀ i < n, ∀ a ∈ P i, Confined (R i) (W i) a) {l : List (ℕ × Act A X)} (hl : Interleaves n P l) {o : List ℕ} (ho : o.Perm (List.range n)) (m : A → X) :
    run l m = run (sequential P o) m := by
  have hmem : ∀ i, i ∈ o ↔ i < n := fun i => by rw [ho.mem_iff, List.mem_range]
  refine run_eq (R := fun i q => i < n ∧ R i q) (W := fun i q => i < n ∧ W i q) ?_ ?_ ?_ ?_ m
  · rintro i j hij q ⟨hi, hw⟩
    constructor
    · rintro ⟨hj, h⟩; exact (hr i hi j hj hij q hw).1 h
    · rintro ⟨hj, h⟩; exact (hr i hi j hj hij q hw).2 h
  · rintro ⟨i, a⟩ h
    have hi := hl.lt _ h
    have : (i, a) ∈ only i l := by simp [only, h]
    rw [hl.prog i hi] at this
    obtain ⟨a', ha', e⟩ := List.mem_map.1 this
    obtain rfl := (Prod.mk.inj e).2
    simpa [hi] using hP i hi a' ha'
  · rintro ⟨i, a⟩ h
    obtain ⟨j, hj, h⟩ := List.mem_flatMap.1 h
    obtain ⟨a', ha', e⟩ := List.mem_map.1 h
    obtain ⟨rfl, rfl⟩ := Prod.mk.inj e
    have hi := (hmem _).1 hj
    simpa [hi] using hP _ hi a' ha'
  · intro i
    rw [only_sequential P o (ho.nodup_iff.2 List.nodup_range)]
    by_cases hi : i < n
    · rw [if_pos ((hmem i).2 hi), hl.prog i hi]
    · rw [if_neg fun h => hi ((hmem i).1 h)]
      apply List.filter_eq_nil_iff.2
      intro ia h e
      simp at e
      exact hi (e ▸ hl.lt _ h)

end FFTW.Spec.Conc
