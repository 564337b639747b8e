import Verif.Proofs.Puts
import Verif.Proofs.Buffered
import Verif.Proofs.RdftProblem
import Verif.Model.DftCt

/-!
# Rank-1 real problems in plain terms
-/

namespace FFTW
open Tensor Spec Finset

/-- a list of steps with disjoint footprints, none of which looks at the footprint of another -/
theorem groups_spec {ι : Type} {f : ι → State → State} {P : ι → Ptr → Prop} (L : List ι)
    (hn : ∀ x ∈ L, ∀ st, (f x st).next = st.next)
    (hfr : ∀ x ∈ L, ∀ st q, ¬ P x q → (f x st).mem q = st.mem q)
    (hdep : ∀ x ∈ L, ∀ st st' : State, (∀ q, (∀ y ∈ L, y ≠ x → ¬ P y q) → st.mem q = st'.mem q) → ∀ q, P x q → (f x st).mem q = (f x st').mem q)
    (hdisj : ∀ x ∈ L, ∀ y ∈ L, ∀ q, P x q → P y q → x = y) (hnd : L.Nodup) (st : State) :
    (L.foldl (fun st x => f x st) st).next = st.next ∧
    (∀ q, (∀ x ∈ L, ¬ P x q) → (L.foldl (fun st x => f x st) st).mem q = st.mem q) ∧
    ∀ x ∈ L, ∀ q, P x q → (L.foldl (fun st x => f x st) st).mem q = (f x st).mem q := by
  induction L generalizing st with
  | nil => simp
  | cons x L ih =>
    simp only [List.foldl_cons]
    rw [List.nodup_cons] at hnd
    obtain ⟨i1, i2, i3⟩ := ih (fun y hy => hn y (by simp [hy])) (fun y hy => hfr y (by simp [hy]))
      (fun y hy st st' h => hdep y (by simp [hy]) st st' fun q hq => h q fun z hz => hq z (by simp [hz]))
      (fun y hy z hz => hdisj y (by simp [hy]) z (by simp [hz])) hnd.2 (f x st)
    refine ⟨by rw [i1, hn x (by simp)], ?_, ?_⟩
    · intro q hq
      rw [i2 q (fun y hy => hq y (by simp [hy])), hfr x (by simp) _ _ (hq x (by simp))]
    · intro y hy q hP
      rcases List.mem_cons.1 hy with rfl | hy
      · exact i2 q fun z hz hPz => hnd.1 ((hdisj y (by simp) z (by simp [hz]) q hP hPz) ▸ hz)
      · rw [i3 y hy q hP]
        refine hdep y (by simp [hy]) _ _ (fun q' hq' => ?_) q hP
        exact hfr x (by simp) _ _ (hq' x (by simp) (fun e => hnd.1 (e ▸ hy)))

theorem groups_forN {f : ℕ → State → State} {P : ℕ → Ptr → Prop} (n : ℕ)
    (hn : ∀ x < n, ∀ st, (f x st).next = st.next)
    (hfr : ∀ x < n, ∀ st q, ¬ P x q → (f x st).mem q = st.mem q)
    (hdep : ∀ x < n, ∀ st st' : State, (∀ q, (∀ y < n, y ≠ x → ¬ P y q) → st.mem q = st'.mem q) → ∀ q, P x q → (f x st).mem q = (f x st').mem q)
    (hdisj : ∀ x < n, ∀ y < n, ∀ q, P x q → P y q → x = y) (st : State) :
    (forN n f st).next = st.next ∧
    (∀ q, (∀ x < n, ¬ P x q) → (forN n f st).mem q = st.mem q) ∧
    ∀ x < n, ∀ q, P x q → (forN n f st).mem q = (f x st).mem q := by
  rw [forN_foldl]
  have := groups_spec (f := f) (P := P) (List.range n) (fun x hx => hn x (List.mem_range.1 hx)) (fun x hx => hfr x (List.mem_range.1 hx))
    (fun x hx st st' h => hdep x (List.mem_range.1 hx) st st' fun q hq => h q fun y hy => hq y (List.mem_range.1 hy))
    (fun x hx y hy => hdisj x (List.mem_range.1 hx) y (List.mem_range.1 hy)) List.nodup_range st
  simpa only [List.mem_range] using this

/-- a loop with two stores per round, neither of which the other rounds look at -/
theorem pairs_spec {n : ℕ} {p q : ℕ → Ptr} {F G : ℕ → (Ptr → ℝ) → ℝ} {W : Ptr → Prop} {f : ℕ → State → State}
    (hf : ∀ i < n, ∀ st, f i st = (st.set (p i) (F i st.mem)).set (q i) (G i st.mem))
    (hW : ∀ i < n, W (p i) ∧ W (q i))
    (hF : ∀ i < n, ∀ m m' : Ptr → ℝ, (∀ r, ¬ W r ∨ r = p i ∨ r = q i → m r = m' r) → F i m = F i m' ∧ G i m = G i m')
    (hp : ∀ i < n, ∀ j < n, p i = p j → i = j) (hq : ∀ i < n, ∀ j < n, q i = q j → i = j) (hpq : ∀ i < n, ∀ j < n, p i ≠ q j) (st : State) :
    (forN n f st).next = st.next ∧ (∀ r, (∀ i < n, r ≠ p i ∧ r ≠ q i) → (forN n f st).mem r = st.mem r) ∧
    ∀ i < n, (forN n f st).mem (p i) = F i st.mem ∧ (forN n f st).mem (q i) = G i st.mem := by
  obtain ⟨h1, h2, h3⟩ := groups_forN (f := f) (P := fun i r => r = p i ∨ r = q i) n (fun i hi st => by rw [hf i hi]; rfl)
    (fun i hi st r hr => by
      rw [hf i hi, State.set_mem_ne _ (fun e => hr (Or.inr e)), State.set_mem_ne _ (fun e => hr (Or.inl e))])
    (fun i hi st st' hh r hr => by
      obtain ⟨eF, eG⟩ := hF i hi st.mem st'.mem fun r' hr' => hh r' fun j hj hne hP => by
        rcases hr' with hr' | rfl | rfl
        · rcases hP with rfl | rfl
          · exact hr' (hW j hj).1
          · exact hr' (hW j hj).2
        · rcases hP with e | e
          · exact hne (hp _ hj _ hi e.symm)
          · exact hpq _ hi _ hj e
        · rcases hP with e | e
          · exact hpq _ hj _ hi e.symm
          · exact hne (hq _ hj _ hi e.symm)
      rw [hf i hi, hf i hi, eF, eG]
      rcases hr with rfl | rfl
      · rw [State.set_mem_ne _ (hpq i hi i hi), State.set_mem_same, State.set_mem_ne _ (hpq i hi i hi), State.set_mem_same]
      · rw [State.set_mem_same, State.set_mem_same])
    (fun i hi j hj r h h' => by
      rcases h with rfl | rfl
      · rcases h' with e | e
        · exact hp _ hi _ hj e
        · exact absurd e (hpq _ hi _ hj)
      · rcases h' with e | e
        · exact absurd e.symm (hpq _ hj _ hi)
        · exact hq _ hi _ hj e) st
  refine ⟨h1, fun r hr => h2 r fun i hi h => ?_, fun i hi => ⟨?_, ?_⟩⟩
  · rcases h with h | h
    · exact (hr i hi).1 h
    · exact (hr i hi).2 h
  · rw [h3 i hi _ (Or.inl rfl), hf i hi, State.set_mem_ne _ (hpq i hi i hi), State.set_mem_same]
  · rw [h3 i hi _ (Or.inr rfl), hf i hi, State.set_mem_same]

namespace Spec

/-- distinct indices are at distinct places -/
def RInj (s : ℤ) (n : ℕ) : Prop := ∀ k k' : ℕ, k < n → k' < n → (k : ℤ) * s = (k' : ℤ) * s → k = k'

/-- a program computing one real transform, in plain terms -/
def R1 (kd : RKind) (n : ℕ) (is os : ℤ) (inpl nd : Bool) (g : Ptr → Ptr → State → State) : Prop :=
  RInj os n → (nd = false → RInj is n) → ∀ (I O : Ptr) (st : State), I.blk < st.next → O.blk < st.next →
    (inpl = true → I = O ∧ ∀ j < n, (j : ℤ) * is = (j : ℤ) * os) → (inpl = false → ∀ j < n, ∀ k < n, I + (j : ℤ) * is ≠ O + (k : ℤ) * os) →
    st.next ≤ (g I O st).next ∧
    (∀ q, q.blk < st.next → (∀ k < n, q ≠ O + (k : ℤ) * os) → (nd = false → ∀ j < n, q ≠ I + (j : ℤ) * is) → (g I O st).mem q = st.mem q) ∧
    ∀ k < n, (g I O st).mem (O + (k : ℤ) * os) = ∑ j ∈ range n, rK kd n j k * st.mem (I + (j : ℤ) * is)

theorem val_r (m : Ptr → ℝ) (p : Ptr) (o : ℤ) : (val m p 0 o : ℝ) = m (p + o) := by
  show m _ = m _; congr 2; push_cast; ring

theorem mem_offs1 {n : ℕ} {s x : ℤ} : x ∈ offs [(n, s)] ↔ ∃ k : ℕ, k < n ∧ x = (k : ℤ) * s := by
  simp only [mem_offs_cons, mem_offs_nil]
  constructor
  · rintro ⟨i, hi, y, rfl, rfl⟩; exact ⟨i, hi, by ring⟩
  · rintro ⟨i, hi, rfl⟩; exact ⟨i, hi, 0, rfl, by ring⟩

theorem offs1_eq (n : ℕ) (s : ℤ) : offs [(n, s)] = (Multiset.range n).map fun k : ℕ => (k : ℤ) * s := by
  simp only [offs, nsmul_eq_mul]
  simp

theorem offs1_nodup {n : ℕ} {s : ℤ} : (offs [(n, s)]).Nodup ↔ RInj s n := by
  rw [offs1_eq]
  constructor
  · intro h k k' hk hk' e
    exact Multiset.inj_on_of_nodup_map h k (Multiset.mem_range.2 hk) k' (Multiset.mem_range.2 hk') e
  · intro h
    exact (Multiset.nodup_range n).map_on fun k hk k' hk' e => h k k' (Multiset.mem_range.1 hk) (Multiset.mem_range.1 hk') e

theorem locT_real1 (d : Dim) (kd : RKind) : outs (locT ℝ 0 0 [(d, kd)] (some [])) = offs [(d.n, d.os)] ∧ ins (locT ℝ 0 0 [(d, kd)] (some [])) = offs [(d.n, d.is)] := by
  rw [RdftS.ins_locT_real, RdftS.outs_locT_real]
  exact ⟨rfl, rfl⟩

/-- the sum of an arithmetic progression determines its step -/
theorem offs1_inj {n : ℕ} {s t : ℤ} (h : offs [(n, s)] = offs [(n, t)]) : ∀ j < n, (j : ℤ) * s = (j : ℤ) * t := by
  intro j hj
  rcases Nat.lt_or_ge 1 n with hn | hn
  · rw [offs1_eq, offs1_eq] at h
    have h := congrArg Multiset.sum h
    have e : ∀ u : ℤ, ((Multiset.range n).map fun k : ℕ => (k : ℤ) * u).sum = (((Multiset.range n).map fun k : ℕ => (k : ℤ)).sum) * u := by
      intro u; rw [Multiset.sum_map_mul_right]
    rw [e, e] at h
    have hpos : 0 < ((Multiset.range n).map fun k : ℕ => (k : ℤ)).sum := by
      have : ((Multiset.range n).map fun k : ℕ => (k : ℤ)).sum = ∑ k ∈ range n, (k : ℤ) := rfl
      rw [this]
      exact sum_pos' (fun i _ => by positivity) ⟨1, mem_range.2 hn, by norm_num⟩
    rw [mul_left_cancel₀ (ne_of_gt hpos) h]
  · obtain rfl : j = 0 := by omega
    simp

theorem GOK_rank1R {d : Dim} {kd : RKind} {inpl nd : Bool} {g : Ptr → Ptr → State → State} (h : R1 kd d.n d.is d.os inpl nd g) :
    GOK rK [(d, kd)] (some []) 0 0 inpl nd g := by
  intro wf I O st hc
  obtain ⟨eo, ei⟩ := locT_real1 d kd
  have wo := wf.out; have wi := wf.inp; have we := wf.eq; have hd := hc.disj
  rw [eo] at wo; rw [ei] at wi; rw [eo, ei] at we hd
  obtain ⟨h1, h2, h3⟩ := h (offs1_nodup.1 wo) (fun hn => offs1_nodup.1 (wi hn)) I O st hc.blkI hc.blkO
    (fun hi => ⟨hc.same hi, offs1_inj (we hi)⟩)
    (fun hi j hj k hk => hd hi _ (mem_offs1.2 ⟨j, hj, rfl⟩) _ (mem_offs1.2 ⟨k, hk, rfl⟩))
  refine ⟨⟨h1, fun q hq hw => h2 q hq ?_ ?_⟩, ?_⟩
  · rintro k hk rfl
    exact hw (Or.inl ⟨_, by rw [eo]; exact mem_offs1.2 ⟨k, hk, rfl⟩, rfl⟩)
  · rintro hn k hk rfl
    exact hw (Or.inr ⟨hn, _, by rw [ei]; exact mem_offs1.2 ⟨k, hk, rfl⟩, rfl⟩)
  · rintro dk ⟨hd1, hd2⟩ ab hab
    obtain rfl : ab = 0 := by simpa [pairs, offs] using hab
    cases dk with
    | nil => simp at hd1
    | cons e t =>
      cases t with
      | cons => simp at hd1
      | nil =>
        obtain ⟨e, k⟩ := e
        simp only [List.map_cons, List.map_nil, List.cons.injEq, and_true] at hd1
        subst hd1
        have hk := hd2 _ (List.mem_cons_self)
        simp only at hk
        have := h3 k hk
        simpa [gSum, gOut, val_r] using this

/-- what the contract of a child plan for one real transform says -/
theorem _root_.FFTW.Spec.GOK.rank1R {d : Dim} {kd : RKind} {inpl nd : Bool} {g : Ptr → Ptr → State → State}
    (h : GOK rK [(d, kd)] (some []) 0 0 inpl nd g) : R1 kd d.n d.is d.os inpl nd g := by
  intro ho hi I O st bI bO hs hd
  obtain ⟨eo, ei⟩ := locT_real1 d kd
  obtain ⟨h1, h2⟩ := h ⟨by rw [eo]; exact offs1_nodup.2 ho, fun hn => by rw [ei]; exact offs1_nodup.2 (hi hn), fun hp => by
      rw [ei, eo, offs1_eq, offs1_eq]
      exact Multiset.map_congr rfl fun j hj => (hs hp).2 j (Multiset.mem_range.1 hj), fun _ => rfl⟩ I O st
    ⟨bI, bO, fun hp => (hs hp).1, fun hp a ha b hb => by
      rw [ei] at ha; rw [eo] at hb
      obtain ⟨j, hj, rfl⟩ := mem_offs1.1 ha
      obtain ⟨k, hk, rfl⟩ := mem_offs1.1 hb
      exact hd hp j hj k hk⟩
  refine ⟨h1.next, fun q hq h3 h4 => h1.mem q hq ?_, ?_⟩
  · rintro (⟨x, hx, e⟩ | ⟨hn, x, hx, e⟩)
    · rw [eo] at hx
      obtain ⟨k, hk, rfl⟩ := mem_offs1.1 hx
      exact h3 k hk e
    · rw [ei] at hx
      obtain ⟨k, hk, rfl⟩ := mem_offs1.1 hx
      exact h4 hn k hk e
  · intro k hk
    have := h2 [((d, kd), k)] ⟨rfl, by simpa using hk⟩ 0 (by simp [pairs, offs])
    rw [gOut_cons, gOut_nil] at this
    simp only [gSum, add_zero, Prod.fst_zero, Prod.snd_zero, val_r] at this
    exact this

theorem one_RInj (n : ℕ) : RInj 1 n := by intro k k' _ _ e; omega

/-- a child plan working in place on a buffer -/
theorem R1.buf {kd : RKind} {n : ℕ} {nd : Bool} {g : Ptr → Ptr → State → State} (h : R1 kd n 1 1 true nd g) {B : Ptr} {st : State} (hB : B.blk < st.next) :
    st.next ≤ (g B B st).next ∧ (∀ q, q.blk < st.next → (∀ k < n, q ≠ B + (k : ℤ)) → (g B B st).mem q = st.mem q) ∧
    ∀ k < n, (g B B st).mem (B + (k : ℤ)) = ∑ j ∈ range n, rK kd n j k * st.mem (B + (j : ℤ)) := by
  obtain ⟨h1, h2, h3⟩ := h (one_RInj n) (fun _ => one_RInj n) B B st hB hB (fun _ => ⟨rfl, fun _ _ => rfl⟩) (by simp)
  simp only [mul_one] at h2 h3
  exact ⟨h1, fun q hq hk => h2 q hq hk fun _ => hk, h3⟩

/-- a copying child plan -/
theorem _root_.FFTW.Spec.GOK.copyR {d : Dim} {inpl nd : Bool} {g : Ptr → Ptr → State → State}
    (h : GOK rK [] (some [d]) 0 0 inpl nd g) (ho : RInj d.os d.n) (hi : nd = false → RInj d.is d.n) {I O : Ptr} {st : State} (bI : I.blk < st.next) (bO : O.blk < st.next)
    (hip : inpl = false) (hd : I.blk ≠ O.blk) :
    st.next ≤ (g I O st).next ∧ (∀ q, q.blk < st.next → q.blk ≠ I.blk → (∀ k < d.n, q ≠ O + (k : ℤ) * d.os) → (g I O st).mem q = st.mem q) ∧
    ∀ k < d.n, (g I O st).mem (O + (k : ℤ) * d.os) = st.mem (I + (k : ℤ) * d.is) := by
  subst hip
  have eo : outs (locT ℝ 0 0 ([] : List (Dim × RKind)) (some [d])) = offs [(d.n, d.os)] := by rw [RdftS.outs_locT_real]; rfl
  have ei : ins (locT ℝ 0 0 ([] : List (Dim × RKind)) (some [d])) = offs [(d.n, d.is)] := by rw [RdftS.ins_locT_real]; rfl
  obtain ⟨h1, h2⟩ := h ⟨by rw [eo]; exact offs1_nodup.2 ho, fun hn => by rw [ei]; exact offs1_nodup.2 (hi hn), by simp, by simp⟩ I O st
    ⟨bI, bO, by simp, fun _ a _ b _ e => hd (by have := congrArg Ptr.blk e; exact this)⟩
  refine ⟨h1.next, fun q hq h3 h4 => h1.mem q hq ?_, ?_⟩
  · rintro (⟨x, hx, e⟩ | ⟨hn, x, hx, e⟩)
    · rw [eo] at hx
      obtain ⟨k, hk, rfl⟩ := mem_offs1.1 hx
      exact h4 k hk e
    · exact h3 (by rw [e]; rfl)
  · intro k hk
    have hm : ((k : ℤ) * d.is, (k : ℤ) * d.os) ∈ pairs (some [d]) := by
      rw [mem_pairs_cons]
      exact ⟨k, hk, 0, by simp [pairs, offs], by simp⟩
    have := h2 [] ⟨rfl, by simp⟩ _ hm
    rw [gOut_nil] at this
    simp only [gSum, val_r, zero_add] at this
    exact this

/-- in place, with matching vector strides: the transform strides match -/
theorem inplace_rank1 {d v : Dim} (hv : 0 < v.n) (hs : v.is = v.os) (h : offs [(d.n, d.is), (v.n, v.is)] = offs [(d.n, d.os), (v.n, v.os)]) :
    ∀ j < d.n, (j : ℤ) * d.is = (j : ℤ) * d.os := by
  intro j hj
  rcases Nat.lt_or_ge 1 d.n with hn | hn
  · have h := congrArg Multiset.sum h
    have e : ∀ s u : ℤ, (offs [(d.n, s), (v.n, u)]).sum = v.n * ((((Multiset.range d.n).map fun k : ℕ => (k : ℤ)).sum) * s) + d.n * (((Multiset.range v.n).map fun k : ℕ => (k : ℤ)).sum * u) := by
      intro s u
      rw [offs_cons, offs1_eq, Multiset.sum_bind]
      simp only [Multiset.map_map, Function.comp_def, Multiset.sum_map_add, Multiset.map_const', Multiset.sum_replicate, Multiset.card_range, nsmul_eq_mul,
        Multiset.sum_map_mul_left, Multiset.sum_map_mul_right]
    rw [e, e, hs] at h
    have hpos : 0 < ((Multiset.range d.n).map fun k : ℕ => (k : ℤ)).sum := by
      have : ((Multiset.range d.n).map fun k : ℕ => (k : ℤ)).sum = ∑ k ∈ range d.n, (k : ℤ) := rfl
      rw [this]
      exact sum_pos' (fun i _ => by positivity) ⟨1, mem_range.2 hn, by norm_num⟩
    have h2 := add_right_cancel h
    have h3 := mul_left_cancel₀ (show ((v.n : ℕ) : ℤ) ≠ 0 by exact_mod_cast hv.ne') h2
    rw [mul_left_cancel₀ (ne_of_gt hpos) h3]
  · obtain rfl : j = 0 := by omega
    simp

/-- a loop over at most one vector dimension around a real transform (`X(tensor_tornk1)`) -/
theorem GOK_vec1 {d vd : Dim} {v : List Dim} {kd : RKind} {inpl nd : Bool} {g : Ptr → Ptr → State → State} (ht : DftS.tornk1 v = some vd)
    (hpos : ∀ e ∈ v, 0 < e.n) (hs : inpl = true → ∀ e ∈ v, e.is = e.os) (h : R1 kd d.n d.is d.os inpl nd g) :
    GOK rK [(d, kd)] (some v) 0 0 inpl nd (fun I O st => forN vd.n (fun i st => g (I + (i : ℤ) * vd.is) (O + (i : ℤ) * vd.os) st) st) := by
  match v with
  | [] =>
    obtain rfl : (⟨1, 0, 0⟩ : Dim) = vd := by simpa [DftS.tornk1] using ht
    have := GOK_rank1R (d := d) h
    refine cast ?_ this
    congr 1
    funext I O st
    simp [forN, ptr_add_zero]
  | [e] =>
    obtain rfl : e = vd := by simpa [DftS.tornk1] using ht
    intro wf
    refine GOK_loop (GOK_rank1R (d := d) h) ?_ (fun hi => hs hi e (by simp)) wf
    intro hi
    have we := wf.eq hi
    rw [RdftS.ins_locT_real, RdftS.outs_locT_real] at we
    have := inplace_rank1 (d := d) (v := e) (hpos e (by simp)) (hs hi e (by simp)) we
    obtain ⟨eo, ei⟩ := locT_real1 d kd
    rw [eo, ei, offs1_eq, offs1_eq]
    exact Multiset.map_congr rfl fun j hj => this j (Multiset.mem_range.1 hj)
  | _ :: _ :: _ => simp [DftS.tornk1] at ht

end Spec
end FFTW
