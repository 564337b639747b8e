import Verif.Proofs.Writes
import Verif.Proofs.Index
import Mathlib.Data.List.ProdSigma

/-! # Loops that store into places they do not read -/

namespace FFTW
open Tensor Spec

/-- stores of real numbers -/
theorem sets_spec {ι : Type} {p : ι → Ptr} {F : ι → (Ptr → ℝ) → ℝ} {W : Ptr → Prop} (L : List ι)
    (hW : ∀ x ∈ L, W (p x)) (hF : ∀ x ∈ L, ∀ m m' : Ptr → ℝ, (∀ q, ¬ W q → m q = m' q) → F x m = F x m')
    (hinj : ∀ x ∈ L, ∀ y ∈ L, p x = p y → x = y) (hnd : L.Nodup) (st : State) :
    let st' := L.foldl (fun st x => st.set (p x) (F x st.mem)) st
    st'.next = st.next ∧ (∀ q, (∀ x ∈ L, q ≠ p x) → st'.mem q = st.mem q) ∧ ∀ x ∈ L, st'.mem (p x) = F x st.mem := by
  induction L generalizing st with
  | nil => simp
  | cons x L ih =>
    simp only [List.foldl_cons]
    rw [List.nodup_cons] at hnd
    obtain ⟨i1, i2, i3⟩ := ih (fun y hy => hW y (by simp [hy])) (fun y hy => hF y (by simp [hy]))
      (fun y hy z hz => hinj y (by simp [hy]) z (by simp [hz])) hnd.2 (st.set (p x) (F x st.mem))
    have hset : ∀ q, ¬ W q → (st.set (p x) (F x st.mem)).mem q = st.mem q := by
      intro q hq
      apply State.set_mem_ne
      rintro rfl
      exact hq (hW x (by simp))
    refine ⟨i1, ?_, ?_⟩
    · intro q hq
      rw [i2 q (fun y hy => hq y (by simp [hy])), State.set_mem_ne _ (hq x (by simp))]
    · intro y hy
      rcases List.mem_cons.1 hy with rfl | hy
      · rw [i2 _ ?_, State.set_mem_same]
        intro z hz e
        exact hnd.1 ((hinj _ (by simp) z (by simp [hz]) e) ▸ hz)
      · rw [i3 y hy]
        exact hF y (by simp [hy]) _ _ hset

/-- stores of complex numbers -/
theorem puts_spec {ι : Type} {B : Ptr} {δ : ℤ} {o : ι → ℤ} {F : ι → (Ptr → ℝ) → ℂ} {W : Ptr → Prop} (L : List ι)
    (hW : ∀ x ∈ L, ∀ c : ℕ, c < 2 → W (B + ((c : ℤ) * δ + o x))) (hF : ∀ x ∈ L, ∀ m m' : Ptr → ℝ, (∀ q, ¬ W q → m q = m' q) → F x m = F x m')
    (hinj : ∀ x ∈ L, ∀ y ∈ L, ∀ c c' : ℕ, c < 2 → c' < 2 → (c : ℤ) * δ + o x = (c' : ℤ) * δ + o y → c = c' ∧ x = y) (hnd : L.Nodup) (st : State) :
    let st' := L.foldl (fun st x => put B δ (o x) (F x st.mem) st) st
    st'.next = st.next ∧ (∀ q, (∀ x ∈ L, ∀ c : ℕ, c < 2 → q ≠ B + ((c : ℤ) * δ + o x)) → st'.mem q = st.mem q) ∧
      ∀ x ∈ L, (val st'.mem B δ (o x) : ℂ) = F x st.mem := by
  induction L generalizing st with
  | nil => simp
  | cons x L ih =>
    simp only [List.foldl_cons]
    rw [List.nodup_cons] at hnd
    obtain ⟨i1, i2, i3⟩ := ih (fun y hy => hW y (by simp [hy])) (fun y hy => hF y (by simp [hy]))
      (fun y hy z hz => hinj y (by simp [hy]) z (by simp [hz])) hnd.2 (put B δ (o x) (F x st.mem) st)
    have hoth : ∀ q, (∀ c : ℕ, c < 2 → q ≠ B + ((c : ℤ) * δ + o x)) → (put B δ (o x) (F x st.mem) st).mem q = st.mem q := by
      intro q hq
      apply put_mem_other
      · simpa using hq 0 (by omega)
      · simpa using hq 1 (by omega)
    refine ⟨i1, ?_, ?_⟩
    · intro q hq
      rw [i2 q (fun y hy => hq y (by simp [hy])), hoth q (hq x (by simp))]
    · intro y hy
      rcases List.mem_cons.1 hy with rfl | hy
      · have e : (val (L.foldl (fun st x => put B δ (o x) (F x st.mem) st) (put B δ (o y) (F y st.mem) st)).mem B δ (o y) : ℂ) =
            val (put B δ (o y) (F y st.mem) st).mem B δ (o y) := by
          apply Elt.dec_congr
          intro c hc
          apply i2
          intro z hz c' hc' e
          rw [ptr_add_right_inj] at e
          exact hnd.1 ((hinj _ (by simp) z (by simp [hz]) c c' hc hc' e).2 ▸ hz)
        rw [e]
        apply Complex.ext
        · rw [val_c]
          show (put _ _ _ _ _).mem _ = _
          rw [put, State.set_mem_ne, State.set_mem_same]
          intro e
          rw [ptr_add_right_inj] at e
          exact absurd (hinj y (by simp) y (by simp) 0 1 (by omega) (by omega) (by push_cast; linarith)).1 (by omega)
        · rw [val_c]
          show (put _ _ _ _ _).mem _ = _
          rw [put, State.set_mem_same]
      · rw [i3 y hy]
        refine hF y (by simp [hy]) _ _ fun q hq => hoth q fun c hc e => ?_
        rw [e] at hq
        exact hq (hW x (by simp) c hc)

/-- a nest of two loops as a loop over pairs -/
theorem forN2_foldl (a b : ℕ) (f : ℕ → ℕ → State → State) (st : State) :
    forN a (fun i st => forN b (f i) st) st = ((List.range a) ×ˢ (List.range b)).foldl (fun st x => f x.1 x.2 st) st := by
  rw [forN_foldl]
  simp only [forN_foldl, SProd.sprod, List.product]
  rw [List.foldl_flatMap]
  congr 1
  funext st i
  rw [List.foldl_map]

theorem nodup_range2 (a b : ℕ) : ((List.range a) ×ˢ (List.range b)).Nodup := List.nodup_range.product List.nodup_range

theorem mem_range2 {a b : ℕ} {x : ℕ × ℕ} : x ∈ (List.range a) ×ˢ (List.range b) ↔ x.1 < a ∧ x.2 < b := by
  obtain ⟨i, j⟩ := x; simp

end FFTW
