import Verif.Spec.Copy
import Verif.Model.Copy
import Verif.Proofs.Writes

/-! # Copies and square transpositions -/

namespace FFTW.Copy
open Spec

/-- running `g` after `f`: `f` does not change what `g` reads, and they agree on common destinations -/
def Indep (A B : Set (Ptr × Ptr)) : Prop := ∀ e ∈ A, ∀ e' ∈ B, e'.1 ≠ e.2 ∧ (e.2 = e'.2 → e.1 = e'.1)

/-- `f`, run when the blocks below `L` exist, performs the rearrangement `M`; blocks from `N` on are scratch -/
structure Copies' (N : ℕ) (M : Set (Ptr × Ptr)) (st st' : State) : Prop where
  next : st.next ≤ st'.next
  copied : ∀ e ∈ M, st'.mem e.2 = st.mem e.1
  other : ∀ q : Ptr, q.blk < N → (∀ e ∈ M, q ≠ e.2) → st'.mem q = st.mem q

/-- see `Copies'` -/
def Does (L N : ℕ) (M : Set (Ptr × Ptr)) (f : State → State) : Prop := ∀ st : State, L ≤ st.next → Copies' N M st (f st)

theorem Does.of_eq {L N : ℕ} {M M' : Set (Ptr × Ptr)} {f : State → State} (h : Does L N M f) (e : M = M') : Does L N M' f := e ▸ h

theorem Does.mono {L N L' N' : ℕ} {M : Set (Ptr × Ptr)} {f : State → State} (h : Does L N M f) (hL : L ≤ L') (hN : N' ≤ N) : Does L' N' M f := fun st hst =>
  have a := h st (hL.trans hst)
  ⟨a.next, a.copied, fun q hq => a.other q (by omega)⟩

theorem Does.copies {M : Set (Ptr × Ptr)} {f : State → State} {st : State} (h : Does st.next st.next M f) : Copies M st (f st) :=
  have a := h st (le_refl _)
  ⟨a.next, a.copied, a.other⟩

theorem Copies'.trans {A B : Set (Ptr × Ptr)} {s t u : State} {N : ℕ} (h1 : Copies' N A s t) (h2 : Copies' N B t u) (hi : Indep A B)
    (hA : Below N A) (hB : Below N B) : Copies' N (A ∪ B) s u := by
  refine ⟨h1.next.trans h2.next, ?_, ?_⟩
  · have hBv : ∀ e ∈ B, u.mem e.2 = s.mem e.1 := by
      intro e he
      rw [h2.copied e he]
      exact h1.other _ (hB e he).1 fun e' he' => (hi e' he' e he).1
    rintro e (he | he)
    · by_cases hx : ∃ e' ∈ B, e.2 = e'.2
      · obtain ⟨e', he', h⟩ := hx
        rw [h, hBv e' he', (hi e he e' he').2 h]
      · push Not at hx
        rw [h2.other _ (hA e he).2 hx, h1.copied e he]
    · exact hBv e he
  · intro q hq hne
    rw [h2.other q hq fun e he => hne e (Or.inr he), h1.other q hq fun e he => hne e (Or.inl he)]

theorem Does.comp {L N : ℕ} {A B : Set (Ptr × Ptr)} {f g : State → State} (h1 : Does L N A f) (h2 : Does L N B g) (hi : Indep A B)
    (hA : Below N A) (hB : Below N B) : Does L N (A ∪ B) (fun st => g (f st)) := fun st hL =>
  Copies'.trans (h1 st hL) (h2 _ (hL.trans (h1 st hL).next)) hi hA hB

theorem does_id (L N : ℕ) : Does L N ∅ (fun st => st) := fun _ _ => ⟨le_refl _, by simp, fun _ _ _ => rfl⟩

/-- union over a loop -/
def iUn (n : ℕ) (M : ℕ → Set (Ptr × Ptr)) : Set (Ptr × Ptr) := {e | ∃ i < n, e ∈ M i}

theorem iUn_succ (n : ℕ) (M : ℕ → Set (Ptr × Ptr)) : iUn (n + 1) M = iUn n M ∪ M n := by
  ext e; constructor
  · rintro ⟨i, hi, he⟩
    by_cases h : i = n
    · subst h; exact Or.inr he
    · exact Or.inl ⟨i, by omega, he⟩
  · rintro (⟨i, hi, he⟩ | he)
    · exact ⟨i, by omega, he⟩
    · exact ⟨n, by omega, he⟩

theorem Does.forN {L N n : ℕ} {M : ℕ → Set (Ptr × Ptr)} {f : ℕ → State → State} (h : ∀ i < n, Does L N (M i) (f i))
    (hi : ∀ i j, i < j → j < n → Indep (M i) (M j)) (hb : Below N (iUn n M)) : Does L N (iUn n M) (forN n f) := by
  induction n with
  | zero =>
    have : iUn 0 M = ∅ := by ext e; simp [iUn]
    rw [this]; exact does_id L N
  | succ n ih =>
    rw [iUn_succ] at hb ⊢
    refine Does.comp (g := f n) (ih (fun i hi => h i (by omega)) (fun i j a b => hi i j a (by omega)) fun e he => hb e (Or.inl he)) (h n (by omega)) ?_
      (fun e he => hb e (Or.inl he)) (fun e he => hb e (Or.inr he))
    rintro e ⟨i, hin, he⟩ e' he'
    exact hi i n hin (by omega) e he e' he'

theorem _root_.FFTW.Spec.OutOfPlace.mono {A B : Set (Ptr × Ptr)} (h : OutOfPlace B) (hs : A ⊆ B) : OutOfPlace A :=
  ⟨fun e he e' he' => h.disj e (hs he) e' (hs he'), fun e he e' he' => h.func e (hs he) e' (hs he')⟩

theorem _root_.FFTW.Spec.OutOfPlace.indep {A B M : Set (Ptr × Ptr)} (h : OutOfPlace M) (hA : A ⊆ M) (hB : B ⊆ M) : Indep A B := fun e he e' he' =>
  ⟨h.disj e (hA he) e' (hB he'), h.func e (hA he) e' (hB he')⟩

theorem _root_.FFTW.Spec.Below.mono {N : ℕ} {A B : Set (Ptr × Ptr)} (h : Below N B) (hs : A ⊆ B) : Below N A := fun e he => h e (hs he)

theorem sub_iUn {n i : ℕ} (hi : i < n) (M : ℕ → Set (Ptr × Ptr)) : M i ⊆ iUn n M := fun _ he => ⟨i, hi, he⟩

/-- out-of-place loop -/
theorem Does.loop {L N n : ℕ} {M : ℕ → Set (Ptr × Ptr)} {f : ℕ → State → State} {T : Set (Ptr × Ptr)} (hT : iUn n M = T)
    (ho : OutOfPlace T) (hb : Below N T) (h : ∀ i < n, Does L N (M i) (f i)) : Does L N T (FFTW.forN n f) := by
  subst hT
  exact Does.forN h (fun i j a b => ho.indep (sub_iUn (by omega) M) (sub_iUn b M)) hb

/-! ### elementary moves -/

theorem ptr_ne_add {p : Ptr} {a b : ℤ} (h : a ≠ b) : p + a ≠ p + b := by simpa using h

theorem does_move1 (L N : ℕ) (I O : Ptr) : Does L N {(I, O)} (move1 I O) := fun st _ =>
  ⟨le_refl _, by simp [move1], fun q _ hq => State.set_mem_ne _ (by simpa using hq) _⟩

/-- the first `w` elements -/
def tuple (I O : Ptr) (w : ℕ) : Set (Ptr × Ptr) := {e | ∃ v < w, e = (I + (v : ℤ), O + (v : ℤ))}

theorem tuple_one (I O : Ptr) : tuple I O 1 = {(I, O)} := by
  ext e; simp [tuple]

theorem mem_tuple_two {I O : Ptr} {e : Ptr × Ptr} : e ∈ tuple I O 2 ↔ e = (I, O) ∨ e = (I + (1 : ℤ), O + (1 : ℤ)) := by
  constructor
  · rintro ⟨v, hv, rfl⟩
    interval_cases v <;> simp
  · rintro (rfl | rfl)
    · exact ⟨0, by omega, by simp⟩
    · exact ⟨1, by omega, by simp⟩

theorem mem_tuple_four {I O : Ptr} {e : Ptr × Ptr} : e ∈ tuple I O 4 ↔
    e = (I, O) ∨ e = (I + (1 : ℤ), O + (1 : ℤ)) ∨ e = (I + (2 : ℤ), O + (2 : ℤ)) ∨ e = (I + (3 : ℤ), O + (3 : ℤ)) := by
  constructor
  · rintro ⟨v, hv, rfl⟩
    interval_cases v <;> simp
  · rintro (rfl | rfl | rfl | rfl)
    · exact ⟨0, by omega, by simp⟩
    · exact ⟨1, by omega, by simp⟩
    · exact ⟨2, by omega, by simp⟩
    · exact ⟨3, by omega, by simp⟩

theorem ptr_self_ne {p : Ptr} {a : ℤ} (h : a ≠ 0) : p ≠ p + a := by
  intro e; have := congrArg Ptr.off e; simp at this; exact h this

theorem does_move2 (L N : ℕ) (I O : Ptr) : Does L N (tuple I O 2) (move2 I O) := fun st _ => by
  have h01 : O ≠ O + (1 : ℤ) := ptr_self_ne (by norm_num)
  refine ⟨le_refl _, ?_, ?_⟩
  · intro e he
    rcases mem_tuple_two.1 he with rfl | rfl
    · simp only [move2]; rw [State.set_mem_ne _ h01, State.set_mem_same]
    · simp only [move2]; rw [State.set_mem_same]
  · intro q _ hq
    have a := hq _ (mem_tuple_two.2 (Or.inl rfl))
    have b := hq _ (mem_tuple_two.2 (Or.inr rfl))
    simp only [move2]; rw [State.set_mem_ne _ b, State.set_mem_ne _ a]

theorem does_move4 (L N : ℕ) (I O : Ptr) : Does L N (tuple I O 4) (move4 I O) := fun st _ => by
  have h01 : O ≠ O + (1 : ℤ) := ptr_self_ne (by norm_num)
  have h02 : O ≠ O + (2 : ℤ) := ptr_self_ne (by norm_num)
  have h03 : O ≠ O + (3 : ℤ) := ptr_self_ne (by norm_num)
  have h12 : O + (1 : ℤ) ≠ O + (2 : ℤ) := ptr_ne_add (by norm_num)
  have h13 : O + (1 : ℤ) ≠ O + (3 : ℤ) := ptr_ne_add (by norm_num)
  have h23 : O + (2 : ℤ) ≠ O + (3 : ℤ) := ptr_ne_add (by norm_num)
  refine ⟨le_refl _, ?_, ?_⟩
  · intro e he
    rcases mem_tuple_four.1 he with rfl | rfl | rfl | rfl <;> simp only [move4]
    · rw [State.set_mem_ne _ h03, State.set_mem_ne _ h02, State.set_mem_ne _ h01, State.set_mem_same]
    · rw [State.set_mem_ne _ h13, State.set_mem_ne _ h12, State.set_mem_same]
    · rw [State.set_mem_ne _ h23, State.set_mem_same]
    · rw [State.set_mem_same]
  · intro q _ hq
    have a := hq _ (mem_tuple_four.2 (Or.inl rfl))
    have b := hq _ (mem_tuple_four.2 (Or.inr (Or.inl rfl)))
    have c := hq _ (mem_tuple_four.2 (Or.inr (Or.inr (Or.inl rfl))))
    have d := hq _ (mem_tuple_four.2 (Or.inr (Or.inr (Or.inr rfl))))
    simp only [move4]; rw [State.set_mem_ne _ d, State.set_mem_ne _ c, State.set_mem_ne _ b, State.set_mem_ne _ a]

/-! ### 1d -/

theorem map1d_eq (I O : Ptr) (n : ℕ) (is os : ℤ) (vl : ℕ) :
    iUn n (fun i => tuple (I + (i : ℤ) * is) (O + (i : ℤ) * os) vl) = map1d I O n is os vl := by
  ext e; constructor
  · rintro ⟨i, hi, v, hv, rfl⟩; exact ⟨i, v, hi, hv, by rw [Ptr.add_add, Ptr.add_add]⟩
  · rintro ⟨i, v, hi, hv, rfl⟩; exact ⟨i, hi, v, hv, by rw [Ptr.add_add, Ptr.add_add]⟩

/-- a contiguous run cut into pieces of length `w` -/
theorem map1d_group (I O : Ptr) (n w u : ℕ) (hu : 0 < u) :
    map1d I O (u * n) w w w = map1d I O n ((u * w : ℕ) : ℤ) ((u * w : ℕ) : ℤ) (u * w) := by
  ext e; constructor
  · rintro ⟨i, v, hi, hv, rfl⟩
    refine ⟨i / u, i % u * w + v, Nat.div_lt_of_lt_mul hi, ?_, ?_⟩
    · have : i % u + 1 ≤ u := Nat.mod_lt _ hu
      nlinarith
    · have e : (i : ℤ) = u * (i / u : ℕ) + (i % u : ℕ) := by exact_mod_cast (Nat.div_add_mod i u).symm
      have : (i : ℤ) * w + v = ((i / u : ℕ) : ℤ) * ((u * w : ℕ) : ℤ) + ((i % u * w + v : ℕ) : ℤ) := by rw [e]; push_cast; ring
      rw [this]
  · rintro ⟨i, v, hi, hv, rfl⟩
    have hw : 0 < w := by
      rcases Nat.eq_zero_or_pos w with rfl | h
      · simp at hv
      · exact h
    refine ⟨u * i + v / w, v % w, ?_, Nat.mod_lt _ hw, ?_⟩
    · have : v / w < u := Nat.div_lt_of_lt_mul (by rw [mul_comm]; exact hv)
      nlinarith
    · have e : (v : ℤ) = w * (v / w : ℕ) + (v % w : ℕ) := by exact_mod_cast (Nat.div_add_mod v w).symm
      have : (i : ℤ) * ((u * w : ℕ) : ℤ) + v = ((u * i + v / w : ℕ) : ℤ) * w + ((v % w : ℕ) : ℤ) := by
        rw [e]; push_cast; ring
      rw [this]

theorem does_cpy1d4 {L N : ℕ} {I O : Ptr} {n : ℕ} {is os : ℤ} (ho : OutOfPlace (map1d I O n is os 4)) (hb : Below N (map1d I O n is os 4)) :
    Does L N (map1d I O n is os 4) (cpy1d4 I O n is os) :=
  Does.loop (map1d_eq ..) ho hb fun _ _ => does_move4 L N _ _

theorem does_cpy1d2 {L N : ℕ} {I O : Ptr} {n : ℕ} {is os : ℤ} (ho : OutOfPlace (map1d I O n is os 2)) (hb : Below N (map1d I O n is os 2)) :
    Does L N (map1d I O n is os 2) (cpy1d2 I O n is os) := by
  unfold cpy1d2
  intro st hN
  split
  · exact Does.loop (f := fun (i : ℕ) st => move2 (I + (i : ℤ) * is) (O + (i : ℤ) * os) st) (map1d_eq ..) ho hb (fun _ _ => does_move2 L N _ _) st hN
  · rename_i h
    push Not at h
    obtain ⟨h1, rfl, rfl⟩ := h
    have e : map1d I O n 2 2 2 = map1d I O (n / 2) 4 4 4 := by
      conv_lhs => rw [show n = 2 * (n / 2) by omega]
      exact map1d_group I O (n / 2) 2 2 (by omega)
    rw [e] at ho hb ⊢
    exact does_cpy1d4 ho hb st hN

theorem does_cpy1d {L N : ℕ} {I O : Ptr} {n : ℕ} {is os : ℤ} {vl : ℕ} (ho : OutOfPlace (map1d I O n is os vl)) (hb : Below N (map1d I O n is os vl)) :
    Does L N (map1d I O n is os vl) (cpy1d I O n is os vl) := by
  unfold cpy1d
  intro st hN
  split
  · rename_i h; subst h
    split
    · refine Does.loop (f := fun (i : ℕ) st => move1 (I + (i : ℤ) * is) (O + (i : ℤ) * os) st) (map1d_eq ..) ho hb (fun i _ => ?_) st hN
      rw [tuple_one]; exact does_move1 L N _ _
    · rename_i h
      push Not at h
      obtain ⟨h1, rfl, rfl⟩ := h
      have e : map1d I O n 1 1 1 = map1d I O (n / 2) 2 2 2 := by
        conv_lhs => rw [show n = 2 * (n / 2) by omega]
        exact map1d_group I O (n / 2) 1 2 (by omega)
      rw [e] at ho hb ⊢
      exact does_cpy1d2 ho hb st hN
  split
  · rename_i h; subst h; exact does_cpy1d2 ho hb st hN
  split
  · rename_i h; subst h; exact does_cpy1d4 ho hb st hN
  · refine Does.loop (f := fun (i0 : ℕ) st => forN vl (fun v st => move1 (I + ((i0 : ℤ) * is + (v : ℤ))) (O + ((i0 : ℤ) * os + (v : ℤ))) st) st) (map1d_eq ..) ho hb (fun i hi => ?_) st hN
    have hs : tuple (I + (i : ℤ) * is) (O + (i : ℤ) * os) vl ⊆ map1d I O n is os vl := by rw [← map1d_eq]; exact fun e he => ⟨i, hi, he⟩
    refine Does.loop (M := fun v => {(I + ((i : ℤ) * is + (v : ℤ)), O + ((i : ℤ) * os + (v : ℤ)))}) ?_ (ho.mono hs) (hb.mono hs) fun v _ => does_move1 L N _ _
    ext e; simp only [iUn, tuple, Set.mem_setOf_eq, Set.mem_singleton_iff, Ptr.add_add]

/-! ### 2d -/

theorem map2d_eq (I O : Ptr) (n0 : ℕ) (is0 os0 : ℤ) (n1 : ℕ) (is1 os1 : ℤ) (vl : ℕ) :
    iUn n1 (fun i1 => iUn n0 fun i0 => tuple (I + ((i0 : ℤ) * is0 + (i1 : ℤ) * is1)) (O + ((i0 : ℤ) * os0 + (i1 : ℤ) * os1)) vl) =
      map2d I O n0 is0 os0 n1 is1 os1 vl := by
  ext e; constructor
  · rintro ⟨i1, h1, i0, h0, v, hv, rfl⟩; exact ⟨i0, i1, v, h0, h1, hv, by rw [Ptr.add_add, Ptr.add_add]⟩
  · rintro ⟨i0, i1, v, h0, h1, hv, rfl⟩; exact ⟨i1, h1, i0, h0, v, hv, by rw [Ptr.add_add, Ptr.add_add]⟩

theorem map2d_swap (I O : Ptr) (n0 : ℕ) (is0 os0 : ℤ) (n1 : ℕ) (is1 os1 : ℤ) (vl : ℕ) :
    map2d I O n1 is1 os1 n0 is0 os0 vl = map2d I O n0 is0 os0 n1 is1 os1 vl := by
  ext e; constructor
  · rintro ⟨i1, i0, v, h1, h0, hv, rfl⟩; exact ⟨i0, i1, v, h0, h1, hv, by rw [add_comm ((i1 : ℤ) * is1), add_comm ((i1 : ℤ) * os1)]⟩
  · rintro ⟨i0, i1, v, h0, h1, hv, rfl⟩; exact ⟨i1, i0, v, h1, h0, hv, by rw [add_comm ((i1 : ℤ) * is1), add_comm ((i1 : ℤ) * os1)]⟩

theorem does_cpy2d {L N : ℕ} {I O : Ptr} {n0 : ℕ} {is0 os0 : ℤ} {n1 : ℕ} {is1 os1 : ℤ} {vl : ℕ} (ho : OutOfPlace (map2d I O n0 is0 os0 n1 is1 os1 vl))
    (hb : Below N (map2d I O n0 is0 os0 n1 is1 os1 vl)) : Does L N (map2d I O n0 is0 os0 n1 is1 os1 vl) (cpy2d I O n0 is0 os0 n1 is1 os1 vl) := by
  unfold cpy2d
  refine Does.loop (map2d_eq ..) ho hb fun i1 h1 => ?_
  have hs1 : (iUn n0 fun i0 : ℕ => tuple (I + ((i0 : ℤ) * is0 + (i1 : ℤ) * is1)) (O + ((i0 : ℤ) * os0 + (i1 : ℤ) * os1)) vl) ⊆ map2d I O n0 is0 os0 n1 is1 os1 vl := by
    rw [← map2d_eq]; intro e he; exact ⟨i1, h1, he⟩
  refine Does.loop rfl (ho.mono hs1) (hb.mono hs1) fun i0 h0 => ?_
  have hs0 : tuple (I + ((i0 : ℤ) * is0 + (i1 : ℤ) * is1)) (O + ((i0 : ℤ) * os0 + (i1 : ℤ) * os1)) vl ⊆ map2d I O n0 is0 os0 n1 is1 os1 vl :=
    (fun e he => hs1 ⟨i0, h0, he⟩)
  intro st hN
  dsimp only
  split
  · rename_i h; subst h; rw [tuple_one]; exact does_move1 L N _ _ st hN
  split
  · rename_i h; subst h; exact does_move2 L N _ _ st hN
  · refine Does.loop (M := fun v => {(I + ((i0 : ℤ) * is0 + (i1 : ℤ) * is1) + (v : ℤ), O + ((i0 : ℤ) * os0 + (i1 : ℤ) * os1) + (v : ℤ))}) ?_ (ho.mono hs0) (hb.mono hs0) (fun v _ => does_move1 L N _ _) st hN
    ext e; simp only [iUn, tuple, Set.mem_setOf_eq, Set.mem_singleton_iff]

theorem does_cpy2dCi {L N : ℕ} {I O : Ptr} {n0 : ℕ} {is0 os0 : ℤ} {n1 : ℕ} {is1 os1 : ℤ} {vl : ℕ} (ho : OutOfPlace (map2d I O n0 is0 os0 n1 is1 os1 vl))
    (hb : Below N (map2d I O n0 is0 os0 n1 is1 os1 vl)) : Does L N (map2d I O n0 is0 os0 n1 is1 os1 vl) (cpy2dCi I O n0 is0 os0 n1 is1 os1 vl) := by
  unfold cpy2dCi
  split
  · exact does_cpy2d ho hb
  · rw [← map2d_swap] at ho hb ⊢; exact does_cpy2d ho hb

theorem does_cpy2dCo {L N : ℕ} {I O : Ptr} {n0 : ℕ} {is0 os0 : ℤ} {n1 : ℕ} {is1 os1 : ℤ} {vl : ℕ} (ho : OutOfPlace (map2d I O n0 is0 os0 n1 is1 os1 vl))
    (hb : Below N (map2d I O n0 is0 os0 n1 is1 os1 vl)) : Does L N (map2d I O n0 is0 os0 n1 is1 os1 vl) (cpy2dCo I O n0 is0 os0 n1 is1 os1 vl) := by
  unfold cpy2dCo
  split
  · exact does_cpy2d ho hb
  · rw [← map2d_swap] at ho hb ⊢; exact does_cpy2d ho hb

/-! ### tiles -/

/-- the cells of a rectangle -/
def rect (R : ℕ → ℕ → Set (Ptr × Ptr)) (a b c d : ℕ) : Set (Ptr × Ptr) := {e | ∃ i j, a ≤ i ∧ i < b ∧ c ≤ j ∧ j < d ∧ e ∈ R i j}

theorem rect_mono {R : ℕ → ℕ → Set (Ptr × Ptr)} {a b c d a' b' c' d' : ℕ} (h1 : a ≤ a') (h2 : b' ≤ b) (h3 : c ≤ c') (h4 : d' ≤ d) : rect R a' b' c' d' ⊆ rect R a b c d := by
  rintro e ⟨i, j, h5, h6, h7, h8, he⟩; exact ⟨i, j, by omega, by omega, by omega, by omega, he⟩

theorem does_tile2d {L N t : ℕ} {ht : 0 < t} {f : ℕ → ℕ → ℕ → ℕ → State → State} {R : ℕ → ℕ → Set (Ptr × Ptr)} {a b c d : ℕ}
    (hf : ∀ a' b' c' d', a ≤ a' → b' ≤ b → c ≤ c' → d' ≤ d → b' - a' ≤ t → d' - c' ≤ t → Does L N (rect R a' b' c' d') (f a' b' c' d'))
    (hi : ∀ i j i' j', a ≤ i → i < b → c ≤ j → j < d → a ≤ i' → i' < b → c ≤ j' → j' < d → (i, j) ≠ (i', j') → Indep (R i j) (R i' j'))
    (hb : Below N (rect R a b c d)) :
    Does L N (rect R a b c d) (tile2d t ht f a b c d) := by
  suffices ∀ k a' b' c' d', (b' - a') + (d' - c') = k → a ≤ a' → b' ≤ b → c ≤ c' → d' ≤ d → Does L N (rect R a' b' c' d') (tile2d t ht f a' b' c' d') from
    this _ a b c d rfl (le_refl _) (le_refl _) (le_refl _) (le_refl _)
  intro k
  induction k using Nat.strong_induction_on with
  | _ k ih =>
    intro a' b' c' d' hk h1 h2 h3 h4
    have hb' : ∀ x y z w, a ≤ x → y ≤ b → c ≤ z → w ≤ d → Below N (rect R x y z w) := fun x y z w p q r s => hb.mono (rect_mono p q r s)
    intro st hN
    rw [tile2d]
    dsimp only
    split
    · rename_i h
      set m := (b' + a') / 2 with hm
      have e : rect R a' b' c' d' = rect R a' m c' d' ∪ rect R m b' c' d' := by
        ext e; constructor
        · rintro ⟨i, j, g1, g2, g3, g4, he⟩
          by_cases hx : i < m
          · exact Or.inl ⟨i, j, g1, hx, g3, g4, he⟩
          · exact Or.inr ⟨i, j, by omega, g2, g3, g4, he⟩
        · rintro (he | he)
          · exact rect_mono (le_refl _) (by omega) (le_refl _) (le_refl _) he
          · exact rect_mono (by omega) (le_refl _) (le_refl _) (le_refl _) he
      rw [e]
      refine Does.comp (ih _ (by omega) a' m c' d' rfl (by omega) (by omega) h3 h4) (ih _ (by omega) m b' c' d' rfl (by omega) (by omega) h3 h4) ?_
        (hb' _ _ _ _ (by omega) (by omega) h3 h4) (hb' _ _ _ _ (by omega) (by omega) h3 h4) st hN
      rintro x ⟨i, j, g1, g2, g3, g4, hx⟩ y ⟨i', j', g1', g2', g3', g4', hy⟩
      exact hi i j i' j' (by omega) (by omega) (by omega) (by omega) (by omega) (by omega) (by omega) (by omega) (by simp; omega) x hx y hy
    split
    · rename_i h' h
      set m := (d' + c') / 2 with hm
      have e : rect R a' b' c' d' = rect R a' b' c' m ∪ rect R a' b' m d' := by
        ext e; constructor
        · rintro ⟨i, j, g1, g2, g3, g4, he⟩
          by_cases hx : j < m
          · exact Or.inl ⟨i, j, g1, g2, g3, hx, he⟩
          · exact Or.inr ⟨i, j, g1, g2, by omega, g4, he⟩
        · rintro (he | he)
          · exact rect_mono (le_refl _) (le_refl _) (le_refl _) (by omega) he
          · exact rect_mono (le_refl _) (le_refl _) (by omega) (le_refl _) he
      rw [e]
      refine Does.comp (ih _ (by omega) a' b' c' m rfl (by omega) (by omega) h3 (by omega)) (ih _ (by omega) a' b' m d' rfl (by omega) (by omega) (by omega) h4) ?_
        (hb' _ _ _ _ (by omega) (by omega) (by omega) (by omega)) (hb' _ _ _ _ (by omega) (by omega) (by omega) (by omega)) st hN
      rintro x ⟨i, j, g1, g2, g3, g4, hx⟩ y ⟨i', j', g1', g2', g3', g4', hy⟩
      exact hi i j i' j' (by omega) (by omega) (by omega) (by omega) (by omega) (by omega) (by omega) (by omega) (by simp; omega) x hx y hy
    · rename_i h h'
      exact hf a' b' c' d' h1 h2 h3 h4 (by omega) (by omega) st hN

/-- one element of a 2d copy -/
def cell (I O : Ptr) (is0 os0 is1 os1 : ℤ) (vl : ℕ) (i j : ℕ) : Set (Ptr × Ptr) :=
  tuple (I + ((i : ℤ) * is0 + (j : ℤ) * is1)) (O + ((i : ℤ) * os0 + (j : ℤ) * os1)) vl

theorem rect_cell (I O : Ptr) (is0 os0 is1 os1 : ℤ) (vl a b c d : ℕ) :
    rect (cell I O is0 os0 is1 os1 vl) a b c d =
      map2d (I + ((a : ℤ) * is0 + (c : ℤ) * is1)) (O + ((a : ℤ) * os0 + (c : ℤ) * os1)) (b - a) is0 os0 (d - c) is1 os1 vl := by
  ext e; constructor
  · rintro ⟨i, j, h1, h2, h3, h4, v, hv, rfl⟩
    obtain ⟨i, rfl⟩ := Nat.exists_eq_add_of_le h1
    obtain ⟨j, rfl⟩ := Nat.exists_eq_add_of_le h3
    refine ⟨i, j, v, by omega, by omega, hv, ?_⟩
    simp only [Ptr.add_add, Prod.mk.injEq, Ptr.add_inj]
    constructor <;> push_cast <;> ring
  · rintro ⟨i, j, v, h1, h2, hv, rfl⟩
    refine ⟨a + i, c + j, by omega, by omega, by omega, by omega, v, hv, ?_⟩
    simp only [Ptr.add_add, Prod.mk.injEq, Ptr.add_inj]
    constructor <;> push_cast <;> ring

theorem rect_cell_full (I O : Ptr) (is0 os0 is1 os1 : ℤ) (vl n0 n1 : ℕ) :
    rect (cell I O is0 os0 is1 os1 vl) 0 n0 0 n1 = map2d I O n0 is0 os0 n1 is1 os1 vl := by
  rw [rect_cell]; simp

theorem cell_sub {I O : Ptr} {is0 os0 is1 os1 : ℤ} {vl n0 n1 i j : ℕ} (hi : i < n0) (hj : j < n1) :
    cell I O is0 os0 is1 os1 vl i j ⊆ map2d I O n0 is0 os0 n1 is1 os1 vl := by
  rw [← rect_cell_full]; intro e he; exact ⟨i, j, by omega, hi, by omega, hj, he⟩

theorem does_cpy2dTiled {L N t : ℕ} {ht : 0 < t} {I O : Ptr} {n0 : ℕ} {is0 os0 : ℤ} {n1 : ℕ} {is1 os1 : ℤ} {vl : ℕ} (ho : OutOfPlace (map2d I O n0 is0 os0 n1 is1 os1 vl))
    (hb : Below N (map2d I O n0 is0 os0 n1 is1 os1 vl)) : Does L N (map2d I O n0 is0 os0 n1 is1 os1 vl) (cpy2dTiled t ht I O n0 is0 os0 n1 is1 os1 vl) := by
  rw [← rect_cell_full] at hb ⊢
  unfold cpy2dTiled
  refine does_tile2d ?_ ?_ hb
  · intro a b c d h1 h2 h3 h4 _ _
    have hs : rect (cell I O is0 os0 is1 os1 vl) a b c d ⊆ rect (cell I O is0 os0 is1 os1 vl) 0 n0 0 n1 := rect_mono h1 h2 h3 h4
    have hb' := hb.mono hs
    have ho' := OutOfPlace.mono ho (hs.trans (rect_cell_full ..).le)
    rw [rect_cell] at hb' ho' ⊢
    exact does_cpy2d ho' hb'
  · intro i j i' j' _ h1 _ h2 _ h3 _ h4 _
    exact ho.indep (cell_sub h1 h2) (cell_sub h3 h4)

/-! ### through a buffer -/

theorem map2d_image (I O : Ptr) (n0 : ℕ) (is0 os0 : ℤ) (n1 : ℕ) (is1 os1 : ℤ) (vl : ℕ) :
    map2d I O n0 is0 os0 n1 is1 os1 vl = (fun x : ℕ × ℕ × ℕ => (I + ((x.1 : ℤ) * is0 + (x.2.1 : ℤ) * is1 + (x.2.2 : ℤ)), O + ((x.1 : ℤ) * os0 + (x.2.1 : ℤ) * os1 + (x.2.2 : ℤ)))) ''
      {x | x.1 < n0 ∧ x.2.1 < n1 ∧ x.2.2 < vl} := by
  ext e; constructor
  · rintro ⟨i0, i1, v, h0, h1, hv, rfl⟩; exact ⟨(i0, i1, v), ⟨h0, h1, hv⟩, rfl⟩
  · rintro ⟨⟨i0, i1, v⟩, ⟨h0, h1, hv⟩, rfl⟩; exact ⟨i0, i1, v, h0, h1, hv, rfl⟩

/-- positions in a buffer with strides `vl`, `vl*n0`, 1 -/
theorem buf_inj {n0 vl i0 i1 v i0' i1' v' : ℕ} (h0 : i0 < n0) (hv : v < vl) (h0' : i0' < n0) (hv' : v' < vl)
    (e : (i0 : ℤ) * vl + (i1 : ℤ) * ((vl * n0 : ℕ) : ℤ) + v = (i0' : ℤ) * vl + (i1' : ℤ) * ((vl * n0 : ℕ) : ℤ) + v') : i0 = i0' ∧ i1 = i1' ∧ v = v' := by
  have e1 : (n0 * i1 + i0) * vl + v = (n0 * i1' + i0') * vl + v' := by
    have : (((n0 * i1 + i0) * vl + v : ℕ) : ℤ) = (((n0 * i1' + i0') * vl + v' : ℕ) : ℤ) := by push_cast at e ⊢; linarith
    exact_mod_cast this
  have hvl : 0 < vl := by omega
  have q1 : n0 * i1 + i0 = n0 * i1' + i0' := by
    have := congrArg (· / vl) e1
    simpa [Nat.add_div_of_dvd_right, mul_comm _ vl, Nat.mul_add_div hvl, Nat.div_eq_of_lt hv, Nat.div_eq_of_lt hv'] using this
  have r1 : v = v' := by rw [q1] at e1; omega
  have hn : 0 < n0 := by omega
  have q2 : i1 = i1' := by
    have := congrArg (· / n0) q1
    simpa [Nat.mul_add_div hn, Nat.div_eq_of_lt h0, Nat.div_eq_of_lt h0'] using this
  exact ⟨by rw [q2] at q1; omega, q2, r1⟩

theorem oop_to_buf {I B : Ptr} {n0 : ℕ} {is0 : ℤ} {n1 : ℕ} {is1 : ℤ} {vl : ℕ} (hB : I.blk ≠ B.blk) :
    OutOfPlace (map2d I B n0 is0 vl n1 is1 ((vl * n0 : ℕ) : ℤ) vl) := by
  constructor
  · rintro _ ⟨i0, i1, v, h0, h1, hv, rfl⟩ _ ⟨i0', i1', v', h0', h1', hv', rfl⟩ h
    exact hB (by simpa using congrArg Ptr.blk h)
  · rintro _ ⟨i0, i1, v, h0, h1, hv, rfl⟩ _ ⟨i0', i1', v', h0', h1', hv', rfl⟩ h
    obtain ⟨rfl, rfl, rfl⟩ := buf_inj h0 hv h0' hv' (by simpa using h)
    rfl

theorem below_map2d {N : ℕ} {I O : Ptr} {n0 : ℕ} {is0 os0 : ℤ} {n1 : ℕ} {is1 os1 : ℤ} {vl : ℕ} (hI : I.blk < N) (hO : O.blk < N) :
    Below N (map2d I O n0 is0 os0 n1 is1 os1 vl) := by
  rintro _ ⟨i0, i1, v, h0, h1, hv, rfl⟩; exact ⟨hI, hO⟩

/-- destinations have one source -/
def Func (M : Set (Ptr × Ptr)) : Prop := ∀ e ∈ M, ∀ e' ∈ M, e.2 = e'.2 → e.1 = e'.1

/-- a tile copied through a buffer; not even overlap of source and destination does harm -/
theorem does_cpyTileBuf {L N : ℕ} {I O B : Ptr} {is0 os0 is1 os1 : ℤ} {vl a b c d : ℕ} (hf : ∀ i0 i1 v i0' i1' v' : ℕ, a ≤ i0 → i0 < b → c ≤ i1 → i1 < d → v < vl →
      a ≤ i0' → i0' < b → c ≤ i1' → i1' < d → v' < vl → (i0 : ℤ) * os0 + (i1 : ℤ) * os1 + v = (i0' : ℤ) * os0 + (i1' : ℤ) * os1 + v' → i0 = i0' ∧ i1 = i1' ∧ v = v')
    (hI : I.blk < N) (hO : O.blk < N) (hBN : N ≤ B.blk) (hBL : B.blk < L) :
    Does L N (rect (cell I O is0 os0 is1 os1 vl) a b c d) (cpyTileBuf I O B is0 os0 is1 os1 vl a b c d) := by
  rw [rect_cell]
  intro st hL
  unfold cpyTileBuf
  set I' := I + ((a : ℤ) * is0 + (c : ℤ) * is1) with hI'
  set O' := O + ((a : ℤ) * os0 + (c : ℤ) * os1) with hO'
  have h1 : Does L L (map2d I' B (b - a) is0 vl (d - c) is1 ((vl * (b - a) : ℕ) : ℤ) vl) (cpy2dCi I' B (b - a) is0 vl (d - c) is1 ((vl * (b - a) : ℕ) : ℤ) vl) :=
    does_cpy2dCi (oop_to_buf (by simp [hI']; omega)) (below_map2d (by simp [hI']; omega) (by omega))
  have h2 : Does L L (map2d B O' (b - a) vl os0 (d - c) ((vl * (b - a) : ℕ) : ℤ) os1 vl) (cpy2dCo B O' (b - a) vl os0 (d - c) ((vl * (b - a) : ℕ) : ℤ) os1 vl) := by
    refine does_cpy2dCo ⟨?_, ?_⟩ (below_map2d (by omega) (by simp [hO']; omega))
    · rintro _ ⟨i0, i1, v, h0, h1, hv, rfl⟩ _ ⟨i0', i1', v', h0', h1', hv', rfl⟩ h
      have := congrArg Ptr.blk h
      simp [hO'] at this
      omega
    · rintro _ ⟨i0, i1, v, h0, h1, hv, rfl⟩ _ ⟨i0', i1', v', h0', h1', hv', rfl⟩ h
      simp only [Ptr.add_inj] at h
      obtain ⟨r1, r2, r3⟩ := hf (a + i0) (c + i1) v (a + i0') (c + i1') v' (by omega) (by omega) (by omega) (by omega) hv (by omega) (by omega) (by omega) (by omega) hv'
        (by push_cast; linarith)
      obtain ⟨rfl, rfl, rfl⟩ : i0 = i0' ∧ i1 = i1' ∧ v = v' := ⟨by omega, by omega, r3⟩
      rfl
  have k1 := h1 st hL
  have k2 := h2 _ (hL.trans k1.next)
  refine ⟨k1.next.trans k2.next, ?_, ?_⟩
  · rintro _ ⟨i0, i1, v, h0, h1, hv, rfl⟩
    have a1 := k1.copied _ ⟨i0, i1, v, h0, h1, hv, rfl⟩
    have a2 := k2.copied _ ⟨i0, i1, v, h0, h1, hv, rfl⟩
    dsimp only at a1 a2 ⊢
    rw [a2, a1]
  · intro q hq hne
    rw [k2.other q (by omega), k1.other q (by omega)]
    · rintro _ ⟨i0, i1, v, h0, h1, hv, rfl⟩ rfl
      simp at hq; omega
    · rintro _ ⟨i0, i1, v, h0, h1, hv, rfl⟩
      exact hne (I' + ((i0 : ℤ) * is0 + (i1 : ℤ) * is1 + (v : ℤ)), O' + ((i0 : ℤ) * os0 + (i1 : ℤ) * os1 + (v : ℤ))) ⟨i0, i1, v, h0, h1, hv, rfl⟩

/-- positions are distinct -/
def Inj2 (n0 : ℕ) (os0 : ℤ) (n1 : ℕ) (os1 : ℤ) (vl : ℕ) : Prop := ∀ i0 i1 v i0' i1' v' : ℕ, i0 < n0 → i1 < n1 → v < vl → i0' < n0 → i1' < n1 → v' < vl →
  (i0 : ℤ) * os0 + (i1 : ℤ) * os1 + v = (i0' : ℤ) * os0 + (i1' : ℤ) * os1 + v' → i0 = i0' ∧ i1 = i1' ∧ v = v'

theorem Inj2.func {I O : Ptr} {n0 : ℕ} {is0 os0 : ℤ} {n1 : ℕ} {is1 os1 : ℤ} {vl : ℕ} (h : Inj2 n0 os0 n1 os1 vl) :
    ∀ e ∈ map2d I O n0 is0 os0 n1 is1 os1 vl, ∀ e' ∈ map2d I O n0 is0 os0 n1 is1 os1 vl, e.2 = e'.2 → e.1 = e'.1 := by
  rintro _ ⟨i0, i1, v, h0, h1, hv, rfl⟩ _ ⟨i0', i1', v', h0', h1', hv', rfl⟩ e
  obtain ⟨rfl, rfl, rfl⟩ := h i0 i1 v i0' i1' v' h0 h1 hv h0' h1' hv' (by simpa using e)
  rfl

theorem does_cpy2dTiledbuf {N t : ℕ} {ht : 0 < t} {I O : Ptr} {n0 : ℕ} {is0 os0 : ℤ} {n1 : ℕ} {is1 os1 : ℤ} {vl : ℕ} (ho : OutOfPlace (map2d I O n0 is0 os0 n1 is1 os1 vl))
    (hinj : Inj2 n0 os0 n1 os1 vl) (hI : I.blk < N) (hO : O.blk < N) : Does N N (map2d I O n0 is0 os0 n1 is1 os1 vl) (cpy2dTiledbuf t ht I O n0 is0 os0 n1 is1 os1 vl) := by
  intro st hN
  have key : Does st.malloc.next N (map2d I O n0 is0 os0 n1 is1 os1 vl) (tile2d t ht (cpyTileBuf I O st.fresh is0 os0 is1 os1 vl) 0 n0 0 n1) := by
    have hb : Below N (map2d I O n0 is0 os0 n1 is1 os1 vl) := below_map2d hI hO
    rw [← rect_cell_full] at hb ⊢
    refine does_tile2d ?_ ?_ hb
    · intro a b c d h1 h2 h3 h4 _ _
      refine does_cpyTileBuf ?_ hI hO (by simpa [State.fresh] using hN) (by simp [State.fresh, State.malloc])
      intro i0 i1 v i0' i1' v' g1 g2 g3 g4 g5 g6 g7 g8 g9 g10 e
      exact hinj i0 i1 v i0' i1' v' (by omega) (by omega) g5 (by omega) (by omega) g10 e
    · intro i j i' j' _ h1 _ h2 _ h3 _ h4 _
      exact ho.indep (cell_sub h1 h2) (cell_sub h3 h4)
  have a := key st.malloc (le_refl _)
  exact ⟨le_trans (by simp [State.malloc]) a.next, a.copied, a.other⟩

/-! ### pairs -/

theorem does_pair1 (L N : ℕ) (I0 I1 O0 O1 : Ptr) (h : O0 = O1 → I0 = I1) :
    Does L N {(I0, O0), (I1, O1)} (fun st => (st.set O0 (st.mem I0)).set O1 (st.mem I1)) := fun st _ => by
  refine ⟨le_refl _, ?_, ?_⟩
  · rintro e (rfl | rfl)
    · dsimp only
      by_cases e : O0 = O1
      · rw [← h e, e]; simp
      · rw [State.set_mem_ne _ e, State.set_mem_same]
    · simp
  · intro q _ hq
    have a := hq _ (Or.inl rfl)
    have b := hq _ (Or.inr rfl)
    dsimp only at a b ⊢
    rw [State.set_mem_ne _ b, State.set_mem_ne _ a]

theorem map2dPair_swap (I0 I1 O0 O1 : Ptr) (n0 : ℕ) (is0 os0 : ℤ) (n1 : ℕ) (is1 os1 : ℤ) :
    map2dPair I0 I1 O0 O1 n1 is1 os1 n0 is0 os0 = map2dPair I0 I1 O0 O1 n0 is0 os0 n1 is1 os1 := by
  rw [map2dPair, map2dPair, map2d_swap I0 O0 n0, map2d_swap I1 O1 n0]

theorem does_cpy2dPair {L N : ℕ} {I0 I1 O0 O1 : Ptr} {n0 : ℕ} {is0 os0 : ℤ} {n1 : ℕ} {is1 os1 : ℤ} (ho : OutOfPlace (map2dPair I0 I1 O0 O1 n0 is0 os0 n1 is1 os1))
    (hb : Below N (map2dPair I0 I1 O0 O1 n0 is0 os0 n1 is1 os1)) :
    Does L N (map2dPair I0 I1 O0 O1 n0 is0 os0 n1 is1 os1) (cpy2dPair I0 I1 O0 O1 n0 is0 os0 n1 is1 os1) := by
  have e2 : iUn n1 (fun i1 => iUn n0 fun i0 =>
      {(I0 + ((i0 : ℤ) * is0 + (i1 : ℤ) * is1), O0 + ((i0 : ℤ) * os0 + (i1 : ℤ) * os1)), (I1 + ((i0 : ℤ) * is0 + (i1 : ℤ) * is1), O1 + ((i0 : ℤ) * os0 + (i1 : ℤ) * os1))}) =
      map2dPair I0 I1 O0 O1 n0 is0 os0 n1 is1 os1 := by
    rw [map2dPair, ← map2d_eq, ← map2d_eq]
    simp only [tuple_one]
    ext e; constructor
    · rintro ⟨i1, h1, i0, h0, (rfl | rfl)⟩
      · exact Or.inl ⟨i1, h1, i0, h0, rfl⟩
      · exact Or.inr ⟨i1, h1, i0, h0, rfl⟩
    · rintro (⟨i1, h1, i0, h0, rfl⟩ | ⟨i1, h1, i0, h0, rfl⟩)
      · exact ⟨i1, h1, i0, h0, Or.inl rfl⟩
      · exact ⟨i1, h1, i0, h0, Or.inr rfl⟩
  unfold cpy2dPair
  refine Does.loop e2 ho hb fun i1 h1 => ?_
  have hs1 := sub_iUn h1 (fun i1 => iUn n0 fun i0 =>
      ({(I0 + ((i0 : ℤ) * is0 + (i1 : ℤ) * is1), O0 + ((i0 : ℤ) * os0 + (i1 : ℤ) * os1)), (I1 + ((i0 : ℤ) * is0 + (i1 : ℤ) * is1), O1 + ((i0 : ℤ) * os0 + (i1 : ℤ) * os1))} : Set (Ptr × Ptr)))
  rw [e2] at hs1
  refine Does.loop rfl (ho.mono hs1) (hb.mono hs1) fun i0 h0 => ?_
  refine does_pair1 L N _ _ _ _ fun e => ?_
  exact ho.func _ (hs1 ⟨i0, h0, Or.inl rfl⟩) _ (hs1 ⟨i0, h0, Or.inr rfl⟩) e

theorem does_cpy2dPairCi {L N : ℕ} {I0 I1 O0 O1 : Ptr} {n0 : ℕ} {is0 os0 : ℤ} {n1 : ℕ} {is1 os1 : ℤ} (ho : OutOfPlace (map2dPair I0 I1 O0 O1 n0 is0 os0 n1 is1 os1))
    (hb : Below N (map2dPair I0 I1 O0 O1 n0 is0 os0 n1 is1 os1)) :
    Does L N (map2dPair I0 I1 O0 O1 n0 is0 os0 n1 is1 os1) (cpy2dPairCi I0 I1 O0 O1 n0 is0 os0 n1 is1 os1) := by
  unfold cpy2dPairCi
  split
  · exact does_cpy2dPair ho hb
  · rw [← map2dPair_swap] at ho hb ⊢; exact does_cpy2dPair ho hb

theorem does_cpy2dPairCo {L N : ℕ} {I0 I1 O0 O1 : Ptr} {n0 : ℕ} {is0 os0 : ℤ} {n1 : ℕ} {is1 os1 : ℤ} (ho : OutOfPlace (map2dPair I0 I1 O0 O1 n0 is0 os0 n1 is1 os1))
    (hb : Below N (map2dPair I0 I1 O0 O1 n0 is0 os0 n1 is1 os1)) :
    Does L N (map2dPair I0 I1 O0 O1 n0 is0 os0 n1 is1 os1) (cpy2dPairCo I0 I1 O0 O1 n0 is0 os0 n1 is1 os1) := by
  unfold cpy2dPairCo
  split
  · exact does_cpy2dPair ho hb
  · rw [← map2dPair_swap] at ho hb ⊢; exact does_cpy2dPair ho hb

end FFTW.Copy
