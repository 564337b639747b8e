import Verif.Proofs.GenVia
import Verif.Proofs.Problem

/-! sequences of stores, and the contract of rank-1 problems spelled out -/

namespace FFTW
open Tensor Spec

/-- stores, first to last -/
def writes : List (Ptr × ℝ) → State → State
  | [], st => st
  | (p, x) :: l, st => writes l (st.set p x)

@[simp] theorem State.set_next (st : State) (p : Ptr) (x : ℝ) : (st.set p x).next = st.next := rfl
@[simp] theorem State.set_mem_same (st : State) (p : Ptr) (x : ℝ) : (st.set p x).mem p = x := by simp [State.set]
theorem State.set_mem_ne (st : State) {p q : Ptr} (h : q ≠ p) (x : ℝ) : (st.set p x).mem q = st.mem q := by simp [State.set, Function.update_of_ne h]

theorem writes_append (a b : List (Ptr × ℝ)) (st : State) : writes (a ++ b) st = writes b (writes a st) := by
  induction a generalizing st with
  | nil => rfl
  | cons e a ih => obtain ⟨p, x⟩ := e; simp [writes, ih]

@[simp] theorem writes_next (l : List (Ptr × ℝ)) (st : State) : (writes l st).next = st.next := by
  induction l generalizing st with
  | nil => rfl
  | cons e l ih => obtain ⟨p, x⟩ := e; simp [writes, ih]

theorem writes_other (l : List (Ptr × ℝ)) (st : State) {q : Ptr} (h : q ∉ l.map Prod.fst) : (writes l st).mem q = st.mem q := by
  induction l generalizing st with
  | nil => rfl
  | cons e l ih =>
    obtain ⟨p, x⟩ := e
    simp only [List.map_cons, List.mem_cons, not_or] at h
    rw [writes, ih _ h.2, State.set_mem_ne _ h.1]

theorem writes_mem (l : List (Ptr × ℝ)) (st : State) (hn : (l.map Prod.fst).Nodup) {p : Ptr} {x : ℝ} (h : (p, x) ∈ l) : (writes l st).mem p = x := by
  induction l generalizing st with
  | nil => simp at h
  | cons e l ih =>
    obtain ⟨p', x'⟩ := e
    simp only [List.map_cons, List.nodup_cons] at hn
    rw [writes]
    rcases List.mem_cons.1 h with h | h
    · simp only [Prod.mk.injEq] at h
      obtain ⟨rfl, rfl⟩ := h
      rw [writes_other _ _ hn.1, State.set_mem_same]
    · exact ih _ hn.2 h

theorem forN_writes (n : ℕ) (L : ℕ → List (Ptr × ℝ)) (st : State) :
    forN n (fun i st => writes (L i) st) st = writes ((List.range n).flatMap L) st := by
  induction n with
  | zero => rfl
  | succ n ih => rw [forN_succ, ih, List.range_succ, List.flatMap_append, writes_append]; simp

theorem forN_congr {n : ℕ} {f g : ℕ → State → State} (h : ∀ i < n, ∀ st, f i st = g i st) (st : State) : forN n f st = forN n g st := by
  induction n with
  | zero => rfl
  | succ n ih => rw [forN_succ, forN_succ, ih (fun i hi => h i (by omega)), h n (by omega)]

theorem forN_inv {P : ℕ → State → Prop} {n : ℕ} {f : ℕ → State → State} {st : State} (h0 : P 0 st)
    (hs : ∀ i < n, ∀ st, P i st → P (i + 1) (f i st)) : P n (forN n f st) := by
  induction n with
  | zero => exact h0
  | succ n ih => exact hs n (by omega) _ (ih fun i hi => hs i (by omega))

theorem iter_inv {σ : Type} {P : ℕ → σ → Prop} {n : ℕ} {f : ℕ → σ → σ} {s : σ} (h0 : P 0 s)
    (hs : ∀ i < n, ∀ s, P i s → P (i + 1) (f i s)) : P n (iter n f s) := by
  induction n with
  | zero => exact h0
  | succ n ih => exact hs n (by omega) _ (ih fun i hi => hs i (by omega))

namespace Spec

/-- a nodup nest of loops of rank 2 is injective -/
theorem nodup2_inj {a b : ℕ} {s t : ℤ} (h : (offs [(a, s), (b, t)]).Nodup) {c c' k k' : ℕ} (hc : c < a) (hc' : c' < a) (hk : k < b) (hk' : k' < b)
    (he : (c : ℤ) * s + k * t = c' * s + k' * t) : c = c' ∧ k = k' := by
  have h1 : offs [(a, s), (b, t)] = (Multiset.range a).bind fun i : ℕ => ((Multiset.range b).map fun j : ℕ => (j : ℤ) * t).map fun x => (i : ℤ) * s + x := by
    simp only [offs, nsmul_eq_mul]
    congr 1
    funext i
    simp
  rw [h1] at h
  obtain ⟨h2, h3⟩ := pieces_nodup (s := fun i : ℕ => (i : ℤ) * s) (S := fun _ => (Multiset.range b).map fun j : ℕ => (j : ℤ) * t) h
  have hcc : c = c' := by
    by_contra hne
    exact h3 c hc c' hc' hne _ (Multiset.mem_map_of_mem _ (Multiset.mem_range.2 hk)) _ (Multiset.mem_map_of_mem _ (Multiset.mem_range.2 hk')) he
  subst hcc
  refine ⟨rfl, ?_⟩
  have hi := Multiset.inj_on_of_nodup_map (h2 c hc)
  exact hi k (Multiset.mem_range.2 hk) k' (Multiset.mem_range.2 hk') (by simpa using he)

theorem mem_offs2 {a b : ℕ} {s t x : ℤ} : x ∈ offs [(a, s), (b, t)] ↔ ∃ c : ℕ, c < a ∧ ∃ k : ℕ, k < b ∧ x = (c : ℤ) * s + (k : ℤ) * t := by
  simp only [offs, Multiset.mem_bind, Multiset.mem_map, Multiset.mem_range, nsmul_eq_mul]
  constructor
  · rintro ⟨c, hc, y, ⟨k, hk, z, hz, rfl⟩, rfl⟩
    simp at hz
    exact ⟨c, hc, k, hk, by simp [hz]⟩
  · rintro ⟨c, hc, k, hk, rfl⟩
    exact ⟨c, hc, _, ⟨k, hk, 0, by simp, rfl⟩, by simp⟩

/-- rank 1, no vector: the contract in plain terms (complex case) -/
theorem GOK_rank1 {d : Dim} {δi δo : ℤ} {inpl nd : Bool} {f : Ptr → Ptr → State → State}
    (h : (∀ c c' k k' : ℕ, c < 2 → c' < 2 → k < d.n → k' < d.n → (c : ℤ) * δo + (k : ℤ) * d.os = (c' : ℤ) * δo + (k' : ℤ) * d.os → c = c' ∧ k = k') →
      (nd = false → ∀ c c' k k' : ℕ, c < 2 → c' < 2 → k < d.n → k' < d.n → (c : ℤ) * δi + (k : ℤ) * d.is = (c' : ℤ) * δi + (k' : ℤ) * d.is → c = c' ∧ k = k') →
      ∀ (I O : Ptr) (st : State), I.blk < st.next → O.blk < st.next →
      (inpl = true → I = O ∧ ∀ c k : ℕ, c < 2 → k < d.n → ∃ c' k' : ℕ, c' < 2 ∧ k' < d.n ∧ (c : ℤ) * δi + (k : ℤ) * d.is = (c' : ℤ) * δo + (k' : ℤ) * d.os) →
      (inpl = false → ∀ c c' k k' : ℕ, c < 2 → c' < 2 → k < d.n → k' < d.n → I + ((c : ℤ) * δi + (k : ℤ) * d.is) ≠ O + ((c' : ℤ) * δo + (k' : ℤ) * d.os)) →
      Frame st (f I O st) (fun q => (∃ c k : ℕ, c < 2 ∧ k < d.n ∧ q = O + ((c : ℤ) * δo + (k : ℤ) * d.os)) ∨
        nd = false ∧ ∃ c k : ℕ, c < 2 ∧ k < d.n ∧ q = I + ((c : ℤ) * δi + (k : ℤ) * d.is)) ∧
      ∀ k < d.n, (val (f I O st).mem O δo ((k : ℤ) * d.os) : ℂ) = ∑ j ∈ Finset.range d.n, ω d.n ^ (j * k) * (val st.mem I δi ((j : ℤ) * d.is) : ℂ)) :
    GOK dftK [(d, ())] (some []) δi δo inpl nd f := by
  intro wf I O st hc
  have eo : outs (locT ℂ δi δo [(d, ())] (some [])) = offs [(2, δo), (d.n, d.os)] := rfl
  have ei : ins (locT ℂ δi δo [(d, ())] (some [])) = offs [(2, δi), (d.n, d.is)] := rfl
  obtain ⟨h1, h2⟩ := h
    (fun c c' k k' hc hc' hk hk' he => nodup2_inj (eo ▸ wf.out) hc hc' hk hk' he)
    (fun hnd c c' k k' hc hc' hk hk' he => nodup2_inj (ei ▸ wf.inp hnd) hc hc' hk hk' he)
    I O st hc.blkI hc.blkO
    (fun hi => ⟨hc.same hi, fun c k hcc hk => by
      have : (c : ℤ) * δi + (k : ℤ) * d.is ∈ ins (locT ℂ δi δo [(d, ())] (some [])) := by rw [ei, mem_offs2]; exact ⟨c, hcc, k, hk, rfl⟩
      rw [wf.eq hi, eo, mem_offs2] at this
      obtain ⟨c', hc', k', hk', e⟩ := this
      exact ⟨c', k', hc', hk', e⟩⟩)
    (fun hi c c' k k' hcc hcc' hk hk' => hc.disj hi _ (by rw [ei, mem_offs2]; exact ⟨c, hcc, k, hk, rfl⟩) _ (by rw [eo, mem_offs2]; exact ⟨c', hcc', k', hk', rfl⟩))
  refine ⟨h1.mono ?_, ?_⟩
  · rintro q - (⟨c, k, hcc, hk, rfl⟩ | ⟨hn, c, k, hcc, hk, rfl⟩)
    · exact Or.inl ⟨_, by rw [eo, mem_offs2]; exact ⟨c, hcc, k, hk, rfl⟩, rfl⟩
    · exact Or.inr ⟨hn, _, by rw [ei, mem_offs2]; exact ⟨c, hcc, k, hk, rfl⟩, rfl⟩
  · rintro dk ⟨hd1, hd2⟩ ab hab
    obtain rfl : ab = 0 := by simpa [pairs, offs] using hab
    cases dk with
    | nil => simp at hd1
    | cons e t =>
      cases t with
      | cons => simp at hd1
      | nil =>
        obtain ⟨e, k⟩ := e
        simp only [List.map_cons, List.map_nil, List.cons.injEq, and_true] at hd1
        subst hd1
        have hk := hd2 _ (List.mem_cons_self)
        simp only at hk
        have := h2 k hk
        simpa [gSum, gOut, dftK] using this

end Spec
end FFTW

/-! ### storing one complex element -/
namespace FFTW
open Tensor Spec

/-- `ro[o] = re z; io[o] = im z` where `io = ro + δ` -/
def put (O : Ptr) (δ o : ℤ) (z : ℂ) (st : State) : State := (st.set (O + o) z.re).set (O + (δ + o)) z.im

theorem ptr_add_right_inj (p : Ptr) {a b : ℤ} : p + a = p + b ↔ a = b := by
  rw [Ptr.add_eq_add]; constructor
  · rintro ⟨_, h⟩; omega
  · rintro rfl; exact ⟨rfl, rfl⟩

/-- distinct elements are at distinct places -/
def PInj (δ s : ℤ) (n : ℕ) : Prop :=
  ∀ c c' k k' : ℕ, c < 2 → c' < 2 → k < n → k' < n → (c : ℤ) * δ + (k : ℤ) * s = (c' : ℤ) * δ + (k' : ℤ) * s → c = c' ∧ k = k'

theorem put_next (O : Ptr) (δ o : ℤ) (z : ℂ) (st : State) : (put O δ o z st).next = st.next := rfl

theorem put_mem_other {O : Ptr} {δ o : ℤ} {z : ℂ} {st : State} {q : Ptr} (h0 : q ≠ O + o) (h1 : q ≠ O + (δ + o)) : (put O δ o z st).mem q = st.mem q := by
  rw [put, State.set_mem_ne _ h1, State.set_mem_ne _ h0]

theorem put_val {O : Ptr} {δ s : ℤ} {n : ℕ} (h : PInj δ s n) {k k' : ℕ} (hk : k < n) (hk' : k' < n) (z : ℂ) (st : State) :
    (val (put O δ (k * s) z st).mem O δ (k' * s) : ℂ) = if k' = k then z else val st.mem O δ (k' * s) := by
  by_cases e : k' = k
  · subst e
    rw [if_pos rfl]
    apply Complex.ext
    · simp only [val, Elt.dec]
      show (put _ _ _ _ _).mem _ = _
      rw [put, State.set_mem_ne]
      · simp
      · intro e
        rw [ptr_add_right_inj] at e
        exact absurd (h 0 1 k' k' (by omega) (by omega) hk hk (by push_cast at e ⊢; linarith)).1 (by omega)
    · simp only [val, Elt.dec]
      show (put _ _ _ _ _).mem _ = _
      rw [put]
      simp
  · rw [if_neg e]
    apply val_congr
    intro c hc
    change c < 2 at hc
    rw [put_mem_other]
    · intro e'
      rw [ptr_add_right_inj] at e'
      exact e (h c 0 k' k hc (by omega) hk' hk (by push_cast; linarith)).2
    · intro e'
      rw [ptr_add_right_inj] at e'
      exact e (h c 1 k' k hc (by omega) hk' hk (by push_cast; linarith)).2

theorem val_c (m : Ptr → ℝ) (p : Ptr) (δ o : ℤ) : (val m p δ o : ℂ) = ⟨m (p + o), m (p + (δ + o))⟩ := by
  apply Complex.ext
  · show m _ = m _; congr 2; push_cast; ring
  · show m _ = m _; congr 2; push_cast; ring

theorem ptr_add_zero (p : Ptr) : p + (0 : ℤ) = p := by
  show (⟨p.blk, p.off + 0⟩ : Ptr) = p
  simp

theorem put_frame {O : Ptr} {δ s : ℤ} {n k : ℕ} (hk : k < n) (z : ℂ) (st : State) :
    Frame st (put O δ (k * s) z st) (fun q => ∃ c k : ℕ, c < 2 ∧ k < n ∧ q = O + ((c : ℤ) * δ + (k : ℤ) * s)) := by
  refine ⟨le_of_eq rfl, ?_⟩
  intro q _ hq
  apply put_mem_other
  · rintro rfl; exact hq ⟨0, k, by omega, hk, by simp⟩
  · rintro rfl; exact hq ⟨1, k, by omega, hk, by simp⟩

end FFTW
