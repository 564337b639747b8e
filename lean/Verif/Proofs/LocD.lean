import Verif.Proofs.Loc

/-! # Programs that transform disjoint groups of array elements and may spoil some of them -/

namespace FFTW
open Tensor Spec

/-- `f` changes the elements `E` of the array that lies at `ad` (in blocks below `b`), and only these; element `x` of `A` becomes `F u x`, where `u`
is the array before; `F` looks at the elements `E` only. -/
structure LocD {ι : Type} (b : ℕ) (ad : ι → Ptr) (E A : ι → Prop) (F : (ι → ℝ) → ι → ℝ) (f : State → State) : Prop where
  sub : ∀ x, A x → E x
  blk : ∀ x, E x → (ad x).blk < b
  dep : ∀ u w : ι → ℝ, (∀ y, E y → u y = w y) → ∀ x, A x → F u x = F w x
  run : ∀ st : State, b ≤ st.next → Frame st (f st) (fun q => ∃ x, E x ∧ q = ad x) ∧
    ∀ x, A x → (f st).mem (ad x) = F (fun y => st.mem (ad y)) x

namespace LocD
variable {ι : Type} {b : ℕ} {ad : ι → Ptr} {E A E' A' : ι → Prop} {F : (ι → ℝ) → ι → ℝ} {f g : State → State}

theorem congr_set (h : LocD b ad E A F f) (hE : ∀ x, E x ↔ E' x) (hA : ∀ x, A x ↔ A' x) : LocD b ad E' A' F f := by
  have e1 : E = E' := funext fun x => propext (hE x)
  have e2 : A = A' := funext fun x => propext (hA x)
  rw [← e1, ← e2]; exact h

theorem congr_fun (h : LocD b ad E A F f) (he : ∀ st, f st = g st) : LocD b ad E A F g := by
  have : f = g := funext he
  rw [← this]; exact h

theorem nop (hE : ∀ x, ¬ E x) (hA : ∀ x, A x → E x) (hf : ∀ st : State, b ≤ st.next → Frame st (f st) (fun _ => False)) : LocD b ad E A F f :=
  ⟨hA, fun x hx => absurd hx (hE x), fun _ _ _ x hx => absurd (hA x hx) (hE x),
   fun st hb => ⟨(hf st hb).mono (fun _ _ h => h.elim), fun x hx => absurd (hA x hx) (hE x)⟩⟩

/-- one after the other, on different elements -/
theorem seq (hf : LocD b ad E A F f) (hg : LocD b ad E' A' F g) (hinj : ∀ x y, E x → E' y → ad x ≠ ad y) :
    LocD b ad (fun x => E x ∨ E' x) (fun x => A x ∨ A' x) F (fun st => g (f st)) := by
  refine ⟨?_, ?_, fun u w e x hx => ?_, fun st hb => ?_⟩
  · rintro x (hx | hx)
    · exact Or.inl (hf.sub x hx)
    · exact Or.inr (hg.sub x hx)
  · rintro x (hx | hx)
    · exact hf.blk x hx
    · exact hg.blk x hx
  · rcases hx with hx | hx
    · exact hf.dep u w (fun y hy => e y (Or.inl hy)) x hx
    · exact hg.dep u w (fun y hy => e y (Or.inr hy)) x hx
  · obtain ⟨h1, h2⟩ := hf.run st hb
    obtain ⟨h3, h4⟩ := hg.run (f st) (hb.trans h1.next)
    refine ⟨h1.trans h3 (fun _ _ ⟨x, hx, e⟩ => ⟨x, Or.inl hx, e⟩) (fun _ _ ⟨x, hx, e⟩ => ⟨x, Or.inr hx, e⟩), ?_⟩
    rintro x (hx | hx)
    · rw [h3.mem _ (lt_of_lt_of_le (hf.blk x (hf.sub x hx)) (hb.trans h1.next)) fun ⟨y, hy, e⟩ => hinj x y (hf.sub x hx) hy e, h2 x hx]
    · rw [h4 x hx]
      exact hg.dep _ _ (fun y hy => h1.mem _ (lt_of_lt_of_le (hg.blk y hy) hb) fun ⟨z, hz, e⟩ => hinj z y hz hy e.symm) x hx

/-- a loop over disjoint groups -/
theorem loop {N : ℕ} {E A : ℕ → ι → Prop} {f : ℕ → State → State} (h : ∀ j < N, LocD b ad (E j) (A j) F (f j))
    (hinj : ∀ i < N, ∀ j < N, i ≠ j → ∀ x y, E i x → E j y → ad x ≠ ad y) :
    LocD b ad (fun x => ∃ j < N, E j x) (fun x => ∃ j < N, A j x) F (forN N f) := by
  induction N with
  | zero => exact LocD.nop (fun x ⟨j, hj, _⟩ => absurd hj (by omega)) (fun x ⟨j, hj, _⟩ => absurd hj (by omega)) fun _ _ => Frame.refl _ _
  | succ N ih =>
    have h1 := ih (fun j hj => h j (by omega)) (fun i hi j hj => hinj i (by omega) j (by omega))
    have h2 := h1.seq (h N (by omega)) (fun x y ⟨j, hj, hx⟩ hy => hinj j (by omega) N (by omega) (by omega) x y hx hy)
    have key : ∀ (S : ℕ → ι → Prop) (x : ι), (∃ j < N, S j x) ∨ S N x ↔ ∃ j < N + 1, S j x := by
      intro S x
      constructor
      · rintro (⟨j, hj, hx⟩ | hx)
        · exact ⟨j, by omega, hx⟩
        · exact ⟨N, by omega, hx⟩
      · rintro ⟨j, hj, hx⟩
        by_cases e : j = N
        · subst e; exact Or.inr hx
        · exact Or.inl ⟨j, by omega, hx⟩
    exact (h2.congr_set (key E) (key A)).congr_fun fun st => (forN_succ N f st).symm

end LocD
end FFTW
