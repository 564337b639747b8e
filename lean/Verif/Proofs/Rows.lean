import Verif.Proofs.Rdft2Solvers
import Verif.Proofs.Fill
import Verif.Proofs.RdftDht
import Verif.Proofs.GenBuf
import Verif.Proofs.Buffered

/-! # Vectors of rows, in plain terms, and passing them through a buffer -/

namespace FFTW
open Tensor Spec DftS RdftS Finset Api

/-- distinct places for `m` rows of `n` numbers -/
def RowInj (n m : ℕ) (A : ℕ → ℤ) (s : ℤ) : Prop :=
  ∀ j < m, ∀ t < n, ∀ j' < m, ∀ t' < n, (j : ℤ) * s + A t = (j' : ℤ) * s + A t' → j = j' ∧ t = t'

/-- a program turning `m` rows of `na` numbers into `m` rows of `nb` numbers, out of place -/
def Rows (na nb : ℕ) (A B : ℕ → ℤ) (F : (ℕ → ℝ) → ℕ → ℝ) (m : ℕ) (is os : ℤ) (nd : Bool) (f : Ptr → Ptr → State → State) : Prop :=
  RowInj nb m B os → (nd = false → RowInj na m A is) → ∀ (I O : Ptr) (st : State), I.blk < st.next → O.blk < st.next →
    (∀ j < m, ∀ i < na, ∀ j' < m, ∀ t < nb, I + ((j : ℤ) * is + A i) ≠ O + ((j' : ℤ) * os + B t)) →
    st.next ≤ (f I O st).next ∧
    (∀ q : Ptr, q.blk < st.next → (∀ j < m, ∀ t < nb, q ≠ O + ((j : ℤ) * os + B t)) →
      (nd = false → ∀ j < m, ∀ i < na, q ≠ I + ((j : ℤ) * is + A i)) → (f I O st).mem q = st.mem q) ∧
    ∀ j < m, ∀ t < nb, (f I O st).mem (O + ((j : ℤ) * os + B t)) = F (fun i => st.mem (I + ((j : ℤ) * is + A i))) t

theorem Rows.weaken {na nb : ℕ} {A B : ℕ → ℤ} {F : (ℕ → ℝ) → ℕ → ℝ} {m : ℕ} {is os : ℤ} {nd nd' : Bool} {f : Ptr → Ptr → State → State}
    (h : Rows na nb A B F m is os nd f) (hn : nd = false → nd' = false) : Rows na nb A B F m is os nd' f := by
  intro ho hi I O st bI bO hd
  obtain ⟨h1, h2, h3⟩ := h ho (fun e => hi (hn e)) I O st bI bO hd
  exact ⟨h1, fun q hq ha hb => h2 q hq ha fun e => hb (hn e), h3⟩

/-- through a private buffer -/
theorem Rows.via {h : Half} {nc : ℕ} {C : ℕ → ℤ} {F1 F2 : (ℕ → ℝ) → ℕ → ℝ} {d : Dim} {bd e : ℤ} {nd1 nd2 inpl nd : Bool}
    {f1 f2 : Ptr → Ptr → State → State}
    (h1 : Rows h.na nc h.A C F1 d.n d.is bd nd1 f1) (h2 : Rows nc h.nb C h.B F2 d.n bd d.os nd2 f2)
    (hC : RowInj nc d.n C bd) (hnd : nd1 = false → nd = false ∨ inpl = true)
    (hF : ∀ x y : ℕ → ℝ, (∀ i < nc, x i = y i) → ∀ t < h.nb, F2 x t = F2 y t)
    (hm : ∀ x : ℕ → ℝ, ∀ t < h.nb, F2 (F1 x) t = h.P t (∑ i ∈ range h.na, h.c t i * ((x i : ℝ) : ℂ))) :
    HOK h [] (some [d]) inpl nd (fun I O => withBuf fun B st => f2 (B + e) O (f1 I (B + e) st)) := by
  apply HOK_rows
  intro I O st ho hi bI bO hpl hap
  have bB : (st.fresh + e).blk = st.next := rfl
  have nI : ∀ x y : ℤ, I + x ≠ (st.fresh + e) + y := fun x y he => by
    have := congrArg Ptr.blk he
    have e1 : I.blk = st.next := this
    omega
  have nO : ∀ x y : ℤ, (st.fresh + e) + x ≠ O + y := fun x y he => by
    have := congrArg Ptr.blk he
    have e1 : st.next = O.blk := this
    omega
  have nx : st.malloc.next = st.next + 1 := rfl
  obtain ⟨a1, a2, a3⟩ := h1 hC (fun hn => hi (hnd hn)) I (st.fresh + e) st.malloc (by rw [nx]; omega) (by rw [nx, bB]; omega)
    (fun _ _ _ _ _ _ _ _ => nI _ _)
  set s1 := f1 I (st.fresh + e) st.malloc with hs1
  obtain ⟨b1, b2, b3⟩ := h2 ho (fun _ => hC) (st.fresh + e) O s1 (by rw [bB]; omega) (by omega) (fun _ _ _ _ _ _ _ _ => nO _ _)
  refine ⟨le_of_eq (withBuf_next _ _).symm, ?_, ?_⟩
  · intro q hq hqo hqi
    show (f2 (st.fresh + e) O s1).mem q = _
    have hqB : ∀ y : ℤ, q ≠ (st.fresh + e) + y := fun y he => by
      have := congrArg Ptr.blk he
      have e1 : q.blk = st.next := this
      omega
    rw [b2 q (by omega) hqo (fun _ _ _ _ _ => hqB _), a2 q (by omega) (fun _ _ _ _ => hqB _) (fun hn => hqi (hnd hn))]
    rfl
  · intro j hj t ht
    show (f2 (st.fresh + e) O s1).mem _ = _
    rw [b3 j hj t ht, ← hm _ t ht]
    exact hF _ _ (fun i hi => a3 j hj i hi) t ht

/-- distinct locations of a vector of strided rows -/
theorem RowInj.nodup {n m : ℕ} {u b : ℤ} (h : RowInj n m (fun k => (k : ℤ) * u) b) : (offs [(n, u), (m, b)]).Nodup := by
  rw [offs_boxes]
  refine (nodup_boxes _).map_on ?_
  intro x hx y hy he
  simp only [List.map_cons, List.map_nil, mem_boxes] at hx hy he
  obtain ⟨k, x2, hk, hx2, rfl⟩ := box_cons.1 hx
  obtain ⟨v, x, hv, hx3, rfl⟩ := box_cons.1 hx2
  obtain ⟨k', y2, hk', hy2, rfl⟩ := box_cons.1 hy
  obtain ⟨v', y, hv', hy3, rfl⟩ := box_cons.1 hy2
  obtain rfl : x = [] := List.length_eq_zero_iff.1 (by rw [box_length hx3]; rfl)
  obtain rfl : y = [] := List.length_eq_zero_iff.1 (by rw [box_length hy3]; rfl)
  simp only [dot_cons, dot_nil] at he
  obtain ⟨rfl, rfl⟩ := h v hv k hk v' hv' k' hk' (by linarith)
  rfl

theorem mem_offs_rows {n m : ℕ} {u b x : ℤ} : x ∈ offs [(n, u), (m, b)] ↔ ∃ j < m, ∃ k < n, x = (j : ℤ) * b + (k : ℤ) * u := by
  simp only [mem_offs_cons, mem_offs_nil]
  constructor
  · rintro ⟨i, hi, y, ⟨j, hj, z, rfl, rfl⟩, rfl⟩; exact ⟨j, hj, i, hi, by ring⟩
  · rintro ⟨j, hj, k, hk, rfl⟩; exact ⟨k, hk, _, ⟨j, hj, 0, rfl, rfl⟩, by ring⟩

/-- a child plan for a vector of real transforms -/
theorem _root_.FFTW.Spec.GOK.rows {n m : ℕ} {s u a b : ℤ} {kd : RKind} {nd : Bool} {g : Ptr → Ptr → State → State}
    (h : GOK rK [(⟨n, s, u⟩, kd)] (some [⟨m, a, b⟩]) 0 0 false nd g) :
    Rows n n (fun i => (i : ℤ) * s) (fun k => (k : ℤ) * u) (fun x k => ∑ j ∈ range n, rK kd n j k * x j) m a b nd g := by
  intro ho hi I O st bI bO hd
  have eo : outs (locT ℝ 0 0 [((⟨n, s, u⟩ : Dim), kd)] (some [⟨m, a, b⟩])) = offs [(n, u), (m, b)] := by rw [RdftS.outs_locT_real]; rfl
  have ei : ins (locT ℝ 0 0 [((⟨n, s, u⟩ : Dim), kd)] (some [⟨m, a, b⟩])) = offs [(n, s), (m, a)] := by rw [RdftS.ins_locT_real]; rfl
  obtain ⟨h1, h2⟩ := h ⟨by rw [eo]; exact ho.nodup, fun hn => by rw [ei]; exact (hi hn).nodup, by simp, by simp⟩ I O st
    ⟨bI, bO, by simp, fun _ x hx y hy => by
      rw [ei] at hx; rw [eo] at hy
      obtain ⟨j, hj, i, hi, rfl⟩ := mem_offs_rows.1 hx
      obtain ⟨j', hj', k, hk, rfl⟩ := mem_offs_rows.1 hy
      exact hd j hj i hi j' hj' k hk⟩
  refine ⟨h1.next, fun q hq ha hb => h1.mem q hq ?_, ?_⟩
  · rintro (⟨x, hx, rfl⟩ | ⟨hn, x, hx, rfl⟩)
    · rw [eo] at hx
      obtain ⟨j, hj, k, hk, rfl⟩ := mem_offs_rows.1 hx
      exact ha j hj k hk rfl
    · rw [ei] at hx
      obtain ⟨j, hj, k, hk, rfl⟩ := mem_offs_rows.1 hx
      exact hb hn j hj k hk rfl
  · intro j hj k hk
    have := h2 [((⟨n, s, u⟩, kd), k)] ⟨rfl, by simpa using hk⟩ ((j : ℤ) * a, (j : ℤ) * b) (mem_pairs1.2 ⟨j, hj, rfl⟩)
    simp only [gSum, gOut, val_r, List.map_cons, List.map_nil, List.sum_cons, List.sum_nil] at this
    rw [show O + ((j : ℤ) * b + (k : ℤ) * u) = O + ((k : ℤ) * u + 0 + (j : ℤ) * b) by congr 1; ring, this]
    refine sum_congr rfl fun i _ => ?_
    rw [show (i : ℤ) * s + 0 + (j : ℤ) * a = (j : ℤ) * a + (i : ℤ) * s by ring]

/-- a child plan for a vector of half-complex rows -/
theorem _root_.FFTW.Spec.HOK.rows {h : Half} {m : ℕ} {a b : ℤ} {nd : Bool} {g : Ptr → Ptr → State → State}
    (hf : HOK h [] (some [⟨m, a, b⟩]) false nd g) :
    Rows h.na h.nb h.A h.B (fun x t => h.P t (∑ i ∈ range h.na, h.c t i * ((x i : ℝ) : ℂ))) m a b nd g := by
  intro ho hi I O st bI bO hd
  have hT : append (some (([] : List (Dim × Unit)).map Prod.fst)) (some [(⟨m, a, b⟩ : Dim)]) = some [⟨m, a, b⟩] := rfl
  have nd' : ∀ {n : ℕ} {A : ℕ → ℤ} {s : ℤ}, RowInj n m A s → (spread ((Multiset.range n).map A) (offs [(m, s)])).Nodup := by
    intro n A s hR
    rw [spread_range]
    refine Multiset.Nodup.map_on ?_ (Multiset.Nodup.product (Multiset.nodup_range _) (Multiset.nodup_range _))
    rintro ⟨j, t⟩ h1 ⟨j', t'⟩ h2 e
    rw [Multiset.mem_product, Multiset.mem_range, Multiset.mem_range] at h1 h2
    obtain ⟨rfl, rfl⟩ := hR j h1.1 t h1.2 j' h2.1 t' h2.2 e
    rfl
  obtain ⟨h1, h2⟩ := hf ⟨nd' ho, fun hn => nd' (hi (hn.resolve_right (by simp))), by simp, by simp⟩ I O st
    ⟨bI, bO, by simp, fun _ x hx y hy => by
      rw [hT] at hx hy
      obtain ⟨_, hp, i, hi, rfl⟩ := mem_hIns.1 hx
      obtain ⟨_, hp', k, hk, rfl⟩ := mem_hOuts.1 hy
      obtain ⟨j, hj, rfl⟩ := mem_pairs1.1 hp
      obtain ⟨j', hj', rfl⟩ := mem_pairs1.1 hp'
      exact hd j hj i hi j' hj' k hk⟩
  refine ⟨h1.next, fun q hq ha hb => h1.mem q hq ?_, ?_⟩
  · rintro (⟨x, hx, rfl⟩ | ⟨hn, x, hx, rfl⟩)
    · obtain ⟨_, hp, i, hi, rfl⟩ := mem_hOuts.1 hx
      obtain ⟨j, hj, rfl⟩ := mem_pairs1.1 hp
      exact ha j hj i hi rfl
    · obtain ⟨_, hp, i, hi, rfl⟩ := mem_hIns.1 hx
      obtain ⟨j, hj, rfl⟩ := mem_pairs1.1 hp
      exact hb (hn.resolve_right (by simp)) j hj i hi rfl
  · intro j hj t ht
    have := h2 [] ⟨rfl, by simp⟩ ((j : ℤ) * a, (j : ℤ) * b) (mem_pairs1.2 ⟨j, hj, rfl⟩) t ht
    simpa [gSum, gOut] using this

/-! ### loops storing rows -/

/-- some of the places `P k`, `k < n`, have received their values `A k` -/
structure FillP (m0 : Ptr → ℝ) (nx : ℕ) (n : ℕ) (P : ℕ → Ptr) (A : ℕ → ℝ) (S : ℕ → Prop) (st : State) : Prop where
  next : st.next = nx
  out : ∀ q, (∀ k < n, q ≠ P k) → st.mem q = m0 q
  val : ∀ k < n, S k → st.mem (P k) = A k

namespace FillP
variable {m0 : Ptr → ℝ} {nx : ℕ} {n : ℕ} {P : ℕ → Ptr} {A : ℕ → ℝ} {S : ℕ → Prop} {st : State}

theorem start (st : State) (n : ℕ) (P : ℕ → Ptr) (A : ℕ → ℝ) : FillP st.mem st.next n P A (fun _ => False) st :=
  ⟨rfl, fun _ _ => rfl, fun _ _ h => h.elim⟩

theorem mono (h : FillP m0 nx n P A S st) {S' : ℕ → Prop} (hS : ∀ k < n, S' k → S k) : FillP m0 nx n P A S' st :=
  ⟨h.next, h.out, fun k hk hs => h.val k hk (hS k hk hs)⟩

theorem set (h : FillP m0 nx n P A S st) (hs : ∀ k < n, ∀ k' < n, P k = P k' → k = k') {k : ℕ} (hk : k < n) {p : Ptr} (hp : p = P k) {v : ℝ} (hv : v = A k) :
    FillP m0 nx n P A (fun j => S j ∨ j = k) (st.set p v) := by
  subst hp hv
  refine ⟨h.next, fun q hq => ?_, fun j hj hS => ?_⟩
  · rw [State.set_mem_ne _ (hq k hk), h.out q hq]
  · by_cases e : j = k
    · subst e; rw [State.set_mem_same]
    · rw [State.set_mem_ne _ (fun e' => e (hs j hj k hk e')), h.val j hj (hS.resolve_right e)]

theorem loop {S : ℕ → ℕ → Prop} {N : ℕ} {f : ℕ → State → State} (h : FillP m0 nx n P A (S 0) st)
    (step : ∀ i < N, ∀ st, FillP m0 nx n P A (S i) st → FillP m0 nx n P A (S (i + 1)) (f i st)) : FillP m0 nx n P A (S N) (forN N f st) :=
  forN_inv (P := fun i st => FillP m0 nx n P A (S i) st) h step

end FillP

/-- a loop over rows, each step storing one row -/
theorem rows_loop {N M : ℕ} {P : ℕ → ℕ → Ptr} {X : ℕ → ℕ → ℝ} {f : ℕ → State → State} {st : State}
    (hinj : ∀ j < N, ∀ t < M, ∀ j' < N, ∀ t' < M, P j t = P j' t' → j = j')
    (hf : ∀ j < N, ∀ s : State, (∀ q, (∀ j < N, ∀ t < M, q ≠ P j t) → s.mem q = st.mem q) → FillP s.mem s.next M (P j) (X j) (fun _ => True) (f j s)) :
    (forN N f st).next = st.next ∧ (∀ q, (∀ j < N, ∀ t < M, q ≠ P j t) → (forN N f st).mem q = st.mem q) ∧
      ∀ j < N, ∀ t < M, (forN N f st).mem (P j t) = X j t := by
  have := forN_inv (P := fun i s => s.next = st.next ∧ (∀ q, (∀ j < N, ∀ t < M, q ≠ P j t) → s.mem q = st.mem q) ∧
      ∀ j < i, j < N → ∀ t < M, s.mem (P j t) = X j t) (n := N) (f := f) (st := st) ⟨rfl, fun _ _ => rfl, by simp⟩ (by
    rintro i hi s ⟨h1, h2, h3⟩
    have h := hf i hi s h2
    refine ⟨h.next.trans h1, fun q hq => (h.out q (hq i hi)).trans (h2 q hq), fun j hj hjN t ht => ?_⟩
    by_cases e : j = i
    · subst e; exact h.val t ht trivial
    · rw [h.out _ (fun k hk e' => e (hinj j hjN t ht i hi k hk e')), h3 j (by omega) hjN t ht])
  exact ⟨this.1, this.2.1, fun j hj => this.2.2 j hj hj⟩

theorem Rows.of_loop {na nb : ℕ} {A B : ℕ → ℤ} {F : (ℕ → ℝ) → ℕ → ℝ} {m : ℕ} {is os : ℤ} {g : Ptr → Ptr → State → State}
    (hF : ∀ x y : ℕ → ℝ, (∀ i < na, x i = y i) → ∀ t < nb, F x t = F y t)
    (h : ∀ (I O : Ptr) (st : State), (∀ t < nb, ∀ t' < nb, O + B t = O + B t' → t = t') → (∀ i < na, ∀ t < nb, I + A i ≠ O + B t) →
      FillP st.mem st.next nb (fun t => O + B t) (F (fun i => st.mem (I + A i))) (fun _ => True) (g I O st)) :
    Rows na nb A B F m is os true (fun I O st => forN m (fun j => g (I + (j : ℤ) * is) (O + (j : ℤ) * os)) st) := by
  intro ho _ I O st bI bO hd
  have key := rows_loop (N := m) (M := nb) (P := fun j t => O + ((j : ℤ) * os + B t)) (X := fun j => F (fun i => st.mem (I + ((j : ℤ) * is + A i))))
    (f := fun j => g (I + (j : ℤ) * is) (O + (j : ℤ) * os)) (st := st)
    (fun j hj t ht j' hj' t' ht' e => (ho j hj t ht j' hj' t' ht' ((ptr_add_right_inj O).1 e)).1) (by
      intro j hj s hs
      have := h (I + (j : ℤ) * is) (O + (j : ℤ) * os) s
        (fun t ht t' ht' e => by
          rw [Ptr.add_add, Ptr.add_add] at e
          exact (ho j hj t ht j hj t' ht' ((ptr_add_right_inj O).1 e)).2)
        (fun i hi t ht => by rw [Ptr.add_add, Ptr.add_add]; exact hd j hj i hi j hj t ht)
      simp only [Ptr.add_add] at this
      refine ⟨this.next, this.out, fun k hk _ => ?_⟩
      rw [this.val k hk trivial]
      exact hF _ _ (fun i hi => hs _ fun j' hj' t ht => hd j hj i hi j' hj' t ht) k hk)
  exact ⟨le_of_eq key.1.symm, fun q _ ha _ => key.2.1 q ha, key.2.2⟩

end FFTW
