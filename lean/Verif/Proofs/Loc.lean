import Verif.Proofs.CodeletsTw
import Verif.Proofs.Real1
import Verif.Proofs.RdftSolvers

/-! # Programs that transform disjoint groups of array elements -/

namespace FFTW
open Tensor Spec

/-- `f` changes the elements `A` of the array that lies at `ad` (in blocks below `b`), and only these: element `x` becomes `F u x`, where `u` is
the array before; `F` looks at the elements `A` only. -/
structure Loc {ι : Type} (b : ℕ) (ad : ι → Ptr) (A : ι → Prop) (F : (ι → ℝ) → ι → ℝ) (f : State → State) : Prop where
  blk : ∀ x, A x → (ad x).blk < b
  dep : ∀ u w : ι → ℝ, (∀ y, A y → u y = w y) → ∀ x, A x → F u x = F w x
  run : ∀ st : State, b ≤ st.next → Frame st (f st) (fun q => ∃ x, A x ∧ q = ad x) ∧
    ∀ x, A x → (f st).mem (ad x) = F (fun y => st.mem (ad y)) x

namespace Loc
variable {ι : Type} {b : ℕ} {ad : ι → Ptr} {A B : ι → Prop} {F G : (ι → ℝ) → ι → ℝ} {f g : State → State}

theorem congr (h : Loc b ad A F f) (hG : ∀ u x, A x → F u x = G u x) : Loc b ad A G f :=
  ⟨h.blk, fun u w e x hx => by rw [← hG u x hx, ← hG w x hx]; exact h.dep u w e x hx,
   fun st hb => ⟨(h.run st hb).1, fun x hx => by rw [(h.run st hb).2 x hx]; exact hG _ x hx⟩⟩

theorem congr_set (h : Loc b ad A F f) (hB : ∀ x, A x ↔ B x) : Loc b ad B F f := by
  have : A = B := funext fun x => propext (hB x)
  rw [← this]; exact h

theorem congr_fun (h : Loc b ad A F f) (he : ∀ st, f st = g st) : Loc b ad A F g := by
  have : f = g := funext he
  rw [← this]; exact h

/-- nothing happens -/
theorem nop (hA : ∀ x, ¬ A x) (hf : ∀ st : State, b ≤ st.next → Frame st (f st) (fun _ => False)) : Loc b ad A F f :=
  ⟨fun x hx => absurd hx (hA x), fun _ _ _ x hx => absurd hx (hA x), fun st hb => ⟨(hf st hb).mono (fun _ _ h => h.elim), fun x hx => absurd hx (hA x)⟩⟩

theorem id (hA : ∀ x, ¬ A x) : Loc b ad A F (fun st => st) := nop hA fun _ _ => Frame.refl _ _

/-- a larger set, the rest of which stays -/
theorem extend (h : Loc b ad A F f) (hAB : ∀ x, A x → B x) (hb : ∀ x, B x → (ad x).blk < b) (hinj : ∀ x y, B x → B y → ad x = ad y → x = y)
    (hF : ∀ u x, B x → ¬ A x → F u x = u x) : Loc b ad B F f := by
  refine ⟨hb, fun u w e x hx => ?_, fun st hst => ?_⟩
  · by_cases hA : A x
    · exact h.dep u w (fun y hy => e y (hAB y hy)) x hA
    · rw [hF u x hx hA, hF w x hx hA]; exact e x hx
  · obtain ⟨h1, h2⟩ := h.run st hst
    refine ⟨h1.mono fun q _ ⟨x, hx, e⟩ => ⟨x, hAB x hx, e⟩, fun x hx => ?_⟩
    by_cases hA : A x
    · exact h2 x hA
    · rw [hF _ x hx hA]
      exact h1.mem _ (lt_of_lt_of_le (hb x hx) hst) fun ⟨y, hy, e⟩ => hA (hinj x y hx (hAB y hy) e ▸ hy)

/-- one after the other, on the same elements -/
theorem comp (hf : Loc b ad A F f) (hg : Loc b ad A G g) : Loc b ad A (fun u => G (F u)) (fun st => g (f st)) := by
  refine ⟨hf.blk, fun u w e x hx => hg.dep _ _ (fun y hy => hf.dep u w e y hy) x hx, fun st hb => ?_⟩
  obtain ⟨h1, h2⟩ := hf.run st hb
  obtain ⟨h3, h4⟩ := hg.run (f st) (hb.trans h1.next)
  refine ⟨h1.trans h3 (fun _ _ h => h) (fun _ _ h => h), fun x hx => ?_⟩
  rw [h4 x hx]
  exact hg.dep _ _ h2 x hx

/-- one after the other, on different elements -/
theorem seq (hf : Loc b ad A F f) (hg : Loc b ad B F g) (hinj : ∀ x y, A x → B y → ad x ≠ ad y) : Loc b ad (fun x => A x ∨ B x) F (fun st => g (f st)) := by
  refine ⟨?_, fun u w e x hx => ?_, fun st hb => ?_⟩
  · rintro x (hx | hx)
    · exact hf.blk x hx
    · exact hg.blk x hx
  · rcases hx with hx | hx
    · exact hf.dep u w (fun y hy => e y (Or.inl hy)) x hx
    · exact hg.dep u w (fun y hy => e y (Or.inr hy)) x hx
  · obtain ⟨h1, h2⟩ := hf.run st hb
    obtain ⟨h3, h4⟩ := hg.run (f st) (hb.trans h1.next)
    refine ⟨h1.trans h3 (fun _ _ ⟨x, hx, e⟩ => ⟨x, Or.inl hx, e⟩) (fun _ _ ⟨x, hx, e⟩ => ⟨x, Or.inr hx, e⟩), ?_⟩
    rintro x (hx | hx)
    · rw [h3.mem _ (lt_of_lt_of_le (hf.blk x hx) (hb.trans h1.next)) fun ⟨y, hy, e⟩ => hinj x y hx hy e, h2 x hx]
    · rw [h4 x hx]
      exact hg.dep _ _ (fun y hy => h1.mem _ (lt_of_lt_of_le (hg.blk y hy) hb) fun ⟨z, hz, e⟩ => hinj z y hz hy e.symm) x hx

/-- a loop over disjoint groups -/
theorem loop {N : ℕ} {A : ℕ → ι → Prop} {f : ℕ → State → State} (h : ∀ j < N, Loc b ad (A j) F (f j))
    (hinj : ∀ i < N, ∀ j < N, i ≠ j → ∀ x y, A i x → A j y → ad x ≠ ad y) : Loc b ad (fun x => ∃ j < N, A j x) F (forN N f) := by
  induction N with
  | zero => exact Loc.id fun x ⟨j, hj, _⟩ => absurd hj (by omega)
  | succ N ih =>
    have h1 := ih (fun j hj => h j (by omega)) (fun i hi j hj => hinj i (by omega) j (by omega))
    have h2 := h1.seq (h N (by omega)) (fun x y ⟨j, hj, hx⟩ hy => hinj j (by omega) N (by omega) (by omega) x y hx hy)
    refine (h2.congr_set fun x => ?_).congr_fun fun st => (forN_succ N f st).symm
    constructor
    · rintro (⟨j, hj, hx⟩ | hx)
      · exact ⟨j, by omega, hx⟩
      · exact ⟨N, by omega, hx⟩
    · rintro ⟨j, hj, hx⟩
      by_cases e : j = N
      · subst e; exact Or.inr hx
      · exact Or.inl ⟨j, by omega, hx⟩

end Loc

/-- a transform of vectors in place -/
theorem Loc_gok {ι κ : Type} {b : ℕ} {ad : ι → Ptr} {F : (ι → ℝ) → ι → ℝ} {r : ℕ} {a : ℤ} {kind : RKind} {vec : List Dim} {nd : Bool} {g : Ptr → Ptr → State → State}
    (h : GOK rK [(⟨r, a, a⟩, kind)] (some vec) 0 0 true nd g) {Q : Ptr} (hQ : Q.blk < b) (C : κ → Prop) (o : κ → ℤ)
    (hs : ∀ d ∈ vec, d.is = d.os)
    (hC : ∀ x, x ∈ outs (some vec) ↔ ∃ c, C c ∧ x = o c) (hn : (outs (some (⟨r, a, a⟩ :: vec))).Nodup)
    (e : κ → ℕ → ι) (he : ∀ c k, C c → k < r → ad (e c k) = Q + ((k : ℤ) * a + o c))
    (hF : ∀ u c k, C c → k < r → F u (e c k) = ∑ j ∈ Finset.range r, rK kind r j k * u (e c j)) :
    Loc b ad (fun x => ∃ c, C c ∧ ∃ k < r, x = e c k) F (g Q Q) := by
  have hp : ∀ ab ∈ pairs (some vec), ab.1 = ab.2 := by
    intro ab hab
    have : pairs (some vec) = (outs (some vec)).map fun x => (x, x) := by
      clear h hC hn hab
      show offs (vec.map fun d => (d.n, (d.is, d.os))) = (offs (vec.map fun d => (d.n, d.os))).map fun x => (x, x)
      induction vec with
      | nil => simp [offs]; rfl
      | cons d l ih =>
        have := ih (fun d hd => hs d (by simp [hd]))
        simp only [List.map_cons, offs, Multiset.map_bind, Multiset.map_map, this]
        refine Multiset.bind_congr fun j _ => ?_
        refine Multiset.map_congr rfl fun x _ => ?_
        simp [hs d (by simp)]
    rw [this] at hab
    obtain ⟨x, _, rfl⟩ := Multiset.mem_map.1 hab
    rfl
  have eo : outs (locT ℝ 0 0 [((⟨r, a, a⟩ : Dim), kind)] (some vec)) = outs (some (⟨r, a, a⟩ :: vec)) := by rw [RdftS.outs_locT_real]; rfl
  have hi2 : ins (some (⟨r, a, a⟩ :: vec)) = outs (some (⟨r, a, a⟩ :: vec)) := by
    show offs _ = offs _
    congr 1
    apply List.map_congr_left
    intro d hd
    rcases List.mem_cons.1 hd with rfl | hd
    · rfl
    · rw [hs d hd]
  have ei : ins (locT ℝ 0 0 [((⟨r, a, a⟩ : Dim), kind)] (some vec)) = outs (some (⟨r, a, a⟩ :: vec)) := by rw [RdftS.ins_locT_real, ← hi2]; rfl
  have hloc : ∀ x, x ∈ outs (some (⟨r, a, a⟩ :: vec)) ↔ ∃ c, C c ∧ ∃ k < r, x = (k : ℤ) * a + o c := by
    intro x
    show x ∈ offs ((r, a) :: _) ↔ _
    rw [mem_offs_cons]
    constructor
    · rintro ⟨k, hk, y, hy, rfl⟩
      obtain ⟨c, hc, rfl⟩ := (hC y).1 hy
      exact ⟨c, hc, k, hk, rfl⟩
    · rintro ⟨c, hc, k, hk, rfl⟩
      exact ⟨k, hk, _, (hC _).2 ⟨c, hc, rfl⟩, rfl⟩
  refine ⟨?_, ?_, ?_⟩
  · rintro x ⟨c, hc, k, hk, rfl⟩
    rw [he c k hc hk]; exact hQ
  · rintro u w huw x ⟨c, hc, k, hk, rfl⟩
    rw [hF u c k hc hk, hF w c k hc hk]
    exact Finset.sum_congr rfl fun j hj => by rw [huw _ ⟨c, hc, j, Finset.mem_range.1 hj, rfl⟩]
  · intro st hst
    obtain ⟨fr, vv⟩ := h ⟨by rw [eo]; exact hn, fun _ => by rw [ei]; exact hn, fun _ => by rw [ei, eo], fun _ => rfl⟩ Q Q st
      ⟨lt_of_lt_of_le hQ hst, lt_of_lt_of_le hQ hst, fun _ => rfl, by simp⟩
    refine ⟨fr.mono ?_, ?_⟩
    · intro q _ hq
      unfold Writable at hq
      rw [ei, eo] at hq
      have : ∃ x ∈ outs (some (⟨r, a, a⟩ :: vec)), q = Q + x := by
        rcases hq with h | ⟨_, h⟩ <;> exact h
      obtain ⟨x, hx, rfl⟩ := this
      obtain ⟨c, hc, k, hk, rfl⟩ := (hloc x).1 hx
      exact ⟨e c k, ⟨c, hc, k, hk, rfl⟩, (he c k hc hk).symm⟩
    · rintro x ⟨c, hc, k, hk, rfl⟩
      obtain ⟨ai, hab⟩ := mem_outs.1 ((hC (o c)).2 ⟨c, hc, rfl⟩)
      have haa := hp _ hab
      simp only at haa
      subst haa
      have := vv [((⟨r, a, a⟩, kind), k)] ⟨rfl, by simpa using hk⟩ _ hab
      rw [gOut_cons, gOut_nil] at this
      simp only [gSum, val_r] at this
      rw [hF _ c k hc hk, he c k hc hk, show (k : ℤ) * a + o c = (k : ℤ) * a + 0 + o c by ring, this]
      refine Finset.sum_congr rfl fun j hj => ?_
      rw [he c j hc (Finset.mem_range.1 hj), add_zero]

/-- a copy in place does nothing -/
theorem frame_gok0 {vec : List Dim} {nd : Bool} {g : Ptr → Ptr → State → State} (h : GOK rK ([] : List (Dim × RKind)) (some vec) 0 0 true nd g)
    (hs : ∀ d ∈ vec, d.is = d.os) (hn : (outs (some vec)).Nodup) {Q : Ptr} {st : State} (hQ : Q.blk < st.next) : Frame st (g Q Q st) (fun _ => False) := by
  have hp : ∀ ab ∈ pairs (some vec), ab.1 = ab.2 := by
    intro ab hab
    have : pairs (some vec) = (outs (some vec)).map fun x => (x, x) := by
      clear h hn hab
      show offs (vec.map fun d => (d.n, (d.is, d.os))) = (offs (vec.map fun d => (d.n, d.os))).map fun x => (x, x)
      induction vec with
      | nil => simp [offs]; rfl
      | cons d l ih =>
        have := ih (fun d hd => hs d (by simp [hd]))
        simp only [List.map_cons, offs, Multiset.map_bind, Multiset.map_map, this]
        refine Multiset.bind_congr fun j _ => ?_
        refine Multiset.map_congr rfl fun x _ => ?_
        simp [hs d (by simp)]
    rw [this] at hab
    obtain ⟨x, _, rfl⟩ := Multiset.mem_map.1 hab
    rfl
  have eo : outs (locT ℝ 0 0 ([] : List (Dim × RKind)) (some vec)) = outs (some vec) := by rw [RdftS.outs_locT_real]; rfl
  have hi2 : ins (some vec) = outs (some vec) := by
    show offs _ = offs _
    congr 1
    apply List.map_congr_left
    intro d hd
    rw [hs d hd]
  have ei : ins (locT ℝ 0 0 ([] : List (Dim × RKind)) (some vec)) = outs (some vec) := by rw [RdftS.ins_locT_real, ← hi2]; rfl
  obtain ⟨fr, vv⟩ := h ⟨by rw [eo]; exact hn, fun _ => by rw [ei]; exact hn, fun _ => by rw [ei, eo], fun _ => rfl⟩ Q Q st
    ⟨hQ, hQ, fun _ => rfl, by simp⟩
  refine ⟨fr.next, fun q hq _ => ?_⟩
  by_cases hx : ∃ x ∈ outs (some vec), q = Q + x
  · obtain ⟨x, hx, rfl⟩ := hx
    obtain ⟨ai, hab⟩ := mem_outs.1 hx
    have haa := hp _ hab
    simp only at haa
    subst haa
    have := vv [] ⟨rfl, by simp⟩ _ hab
    rw [gOut_nil] at this
    simpa [gSum, val_r] using this
  · refine fr.mem q hq fun hw => hx ?_
    unfold Writable at hw
    rw [ei, eo] at hw
    rcases hw with h | ⟨_, h⟩ <;> exact h

end FFTW

namespace FFTW
open Tensor Spec

theorem foldl_sets {ι : Type} (ad : ι → Ptr) (V : ι → ℝ) (L : List ι) (hinj : ∀ x ∈ L, ∀ y ∈ L, ad x = ad y → x = y) (s : State) :
    (L.foldl (fun s x => s.set (ad x) (V x)) s).next = s.next ∧ (∀ x ∈ L, (L.foldl (fun s x => s.set (ad x) (V x)) s).mem (ad x) = V x) ∧
    ∀ q, (∀ x ∈ L, q ≠ ad x) → (L.foldl (fun s x => s.set (ad x) (V x)) s).mem q = s.mem q := by
  induction L generalizing s with
  | nil => simp
  | cons a L ih =>
    obtain ⟨h1, h2, h3⟩ := ih (fun x hx y hy => hinj x (by simp [hx]) y (by simp [hy])) (s.set (ad a) (V a))
    simp only [List.foldl_cons]
    refine ⟨by rw [h1]; rfl, ?_, ?_⟩
    · intro x hx
      by_cases hxL : x ∈ L
      · exact h2 x hxL
      · obtain rfl : x = a := by
          rcases List.mem_cons.1 hx with h | h
          · exact h
          · exact absurd h hxL
        rw [h3, State.set_mem_same]
        intro y hy e
        exact hxL (hinj x (by simp) y (by simp [hy]) e ▸ hy)
    · intro q hq
      rw [h3 q fun x hx => hq x (by simp [hx]), State.set_mem_ne _ (hq a (by simp))]

/-- a few assignments, computed from the values before -/
theorem Loc.sets {ι : Type} {b : ℕ} {ad : ι → Ptr} {F : (ι → ℝ) → ι → ℝ} {f : State → State} (L : List ι) (hinj : ∀ x ∈ L, ∀ y ∈ L, ad x = ad y → x = y)
    (hb : ∀ x ∈ L, (ad x).blk < b) (hdep : ∀ u w : ι → ℝ, (∀ y ∈ L, u y = w y) → ∀ x ∈ L, F u x = F w x)
    (hf : ∀ st : State, f st = L.foldl (fun s x => s.set (ad x) (F (fun y => st.mem (ad y)) x)) st) : Loc b ad (fun x => x ∈ L) F f := by
  refine ⟨hb, hdep, fun st _ => ?_⟩
  obtain ⟨h1, h2, h3⟩ := foldl_sets ad (F (fun y => st.mem (ad y))) L hinj st
  rw [hf st]
  exact ⟨⟨h1.ge, fun q _ hq => h3 q fun x hx e => hq ⟨x, hx, e⟩⟩, h2⟩

/-- two steps on the same elements with something else in between -/
theorem Loc.around {ι κ : Type} {b : ℕ} {ad : ι → Ptr} {ad' : κ → Ptr} {A : ι → Prop} {B : κ → Prop} {F H : (ι → ℝ) → ι → ℝ} {G : (κ → ℝ) → κ → ℝ} {f g h : State → State}
    (hf : Loc b ad A F f) (hg : Loc b ad' B G g) (hh : Loc b ad A H h) (hd : ∀ x y, A x → B y → ad x ≠ ad' y) (st : State) (hst : b ≤ st.next) :
    Frame st (h (g (f st))) (fun q => (∃ x, A x ∧ q = ad x) ∨ ∃ y, B y ∧ q = ad' y) ∧
    (∀ x, A x → (h (g (f st))).mem (ad x) = H (F fun y => st.mem (ad y)) x) ∧ ∀ y, B y → (h (g (f st))).mem (ad' y) = G (fun z => st.mem (ad' z)) y := by
  obtain ⟨f1, v1⟩ := hf.run st hst
  have n1 := hst.trans f1.next
  obtain ⟨f2, v2⟩ := hg.run (f st) n1
  have n2 := n1.trans f2.next
  obtain ⟨f3, v3⟩ := hh.run (g (f st)) n2
  refine ⟨(f1.trans f2 (fun _ _ h => Or.inl h) (fun _ _ h => Or.inr h)).trans f3 (fun _ _ h => h) (fun _ _ h => Or.inl h), fun x hx => ?_, fun y hy => ?_⟩
  · rw [v3 x hx]
    refine hh.dep _ _ (fun z hz => ?_) x hx
    rw [f2.mem _ (lt_of_lt_of_le (hf.blk z hz) n1) fun ⟨w, hw, e⟩ => hd z w hz hw e, v1 z hz]
  · rw [f3.mem _ (lt_of_lt_of_le (hg.blk y hy) n2) fun ⟨x, hx, e⟩ => hd x y hx hy e.symm, v2 y hy]
    exact hg.dep _ _ (fun z hz => f1.mem _ (lt_of_lt_of_le (hg.blk z hz) hst) fun ⟨x, hx, e⟩ => hd x z hx hz e.symm) y hy

end FFTW
