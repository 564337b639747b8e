import Verif.Spec.Contract
import Verif.Proofs.Tensor
import Mathlib.Tactic.Push

namespace FFTW
@[simp] theorem Ptr.add_blk (p : Ptr) (a : ℤ) : (p + a).blk = p.blk := rfl
@[simp] theorem Ptr.add_off (p : Ptr) (a : ℤ) : (p + a).off = p.off + a := rfl
theorem Ptr.add_add (p : Ptr) (a b : ℤ) : p + a + b = p + (a + b) := by
  ext <;> simp [add_assoc]
@[simp] theorem Ptr.add_zero (p : Ptr) : p + (0 : ℤ) = p := by ext <;> simp
@[simp] theorem Ptr.add_inj {p : Ptr} {a b : ℤ} : p + a = p + b ↔ a = b := by
  constructor
  · intro h; have := congrArg Ptr.off h; simpa using this
  · rintro rfl; rfl
theorem Ptr.add_eq_add {p q : Ptr} {a b : ℤ} : p + a = q + b ↔ p.blk = q.blk ∧ p.off + a = q.off + b := by
  rw [Ptr.ext_iff]; rfl

@[simp] theorem forN_zero (b : ℕ → State → State) (st : State) : forN 0 b st = st := rfl
@[simp] theorem forN_succ (n : ℕ) (b : ℕ → State → State) (st : State) : forN (n+1) b st = b n (forN n b st) := rfl

theorem forN_succ' (n : ℕ) (b : ℕ → State → State) (st : State) : forN (n+1) b st = forN n (fun i => b (i+1)) (b 0 st) := by
  induction n with
  | zero => rfl
  | succ n ih => rw [forN_succ, ih]; rfl

namespace Spec
open FFTW.Tensor
variable {V τ : Type} [CommRing V] [Elt V] {K : τ → ℕ → ℕ → ℕ → V}

/-! ### gSum -/

theorem gSum_append (a b : List ((Dim × τ) × ℕ)) : ∀ x, gSum K (a ++ b) x = gSum K a fun o1 => gSum K b fun o2 => x (o1 + o2) := by
  induction a with
  | nil => intro x; simp [gSum]
  | cons e a ih =>
    intro x; obtain ⟨⟨d, t⟩, k⟩ := e
    simp only [List.cons_append, gSum, ih, add_assoc]

theorem gSum_perm {a b : List ((Dim × τ) × ℕ)} (h : a.Perm b) : ∀ x, gSum K a x = gSum K b x := by
  induction h with
  | nil => intro x; rfl
  | cons e _ ih => intro x; obtain ⟨⟨d, t⟩, k⟩ := e; simp only [gSum, ih]
  | swap e f l =>
    intro x; obtain ⟨⟨d, t⟩, k⟩ := e; obtain ⟨⟨d', t'⟩, k'⟩ := f
    simp only [gSum, Finset.mul_sum]
    rw [Finset.sum_comm]
    refine Finset.sum_congr rfl fun i _ => Finset.sum_congr rfl fun j _ => ?_
    rw [← mul_assoc, ← mul_assoc, mul_comm (K t' _ _ _)]
    congr 1
    congr 1
    funext o
    congr 1; ring
  | trans _ _ ih1 ih2 => intro x; rw [ih1, ih2]

theorem gOut_perm {a b : List ((Dim × τ) × ℕ)} (h : a.Perm b) : gOut a = gOut b := by
  unfold gOut; exact (h.map _).sum_eq

theorem gOut_append (a b : List ((Dim × τ) × ℕ)) : gOut (a ++ b) = gOut a + gOut b := by simp [gOut]

@[simp] theorem gOut_nil : gOut ([] : List ((Dim × τ) × ℕ)) = 0 := rfl
theorem gOut_cons (e : (Dim × τ) × ℕ) (l : List ((Dim × τ) × ℕ)) : gOut (e :: l) = (e.2 : ℤ) * e.1.1.os + gOut l := by simp [gOut]

/-- changing the input strides (and the element function accordingly) -/
theorem gSum_restride {dk : List ((Dim × τ) × ℕ)} (f : Dim → Dim) (hn : ∀ d, (f d).n = d.n) : ∀ {x y : ℤ → V},
    (∀ p ∈ offs (dk.map fun e => (e.1.1.n, ((e.1.1.is, (f e.1.1).is) : ℤ × ℤ))), y p.2 = x p.1) →
    gSum K (dk.map fun e => ((f e.1.1, e.1.2), e.2)) y = gSum K dk x := by
  induction dk with
  | nil => intro x y h; exact h (0, 0) (by simp [offs])
  | cons e dk ih =>
    intro x y h
    obtain ⟨⟨d, t⟩, k⟩ := e
    simp only [List.map_cons, gSum, hn]
    refine Finset.sum_congr rfl fun j hj => ?_
    congr 1
    apply ih
    intro p hp
    apply h (j * d.is + p.1, j * (f d).is + p.2)
    simp only [List.map_cons, offs, Multiset.mem_bind, Multiset.mem_map, Multiset.mem_range]
    exact ⟨j, Finset.mem_range.1 hj, p, hp, by ext <;> simp⟩

theorem gSum_congr {dk : List ((Dim × τ) × ℕ)} {x y : ℤ → V}
    (h : ∀ o ∈ ins (some (dk.map fun e => e.1.1)), x o = y o) : gSum K dk x = gSum K dk y := by
  have := gSum_restride (K := K) (dk := dk) id (fun _ => rfl) (x := y) (y := x) ?_
  · simpa using this
  · intro p hp
    have h1 := offs_map ((AddMonoidHom.id ℤ).prod (AddMonoidHom.id ℤ)) (dk.map fun e => (e.1.1.n, e.1.1.is))
    rw [List.map_map] at h1
    change _ = offs (dk.map fun e => (e.1.1.n, ((e.1.1.is, (id e.1.1).is) : ℤ × ℤ))) at h1
    rw [← h1, Multiset.mem_map] at hp
    obtain ⟨o, ho, rfl⟩ := hp
    apply h
    simpa [ins, List.map_map, Function.comp_def] using ho

theorem GIdx.perm {sz sz' : List (Dim × τ)} (h : sz.Perm sz') {dk : List ((Dim × τ) × ℕ)} (hd : GIdx sz dk) :
    ∃ dk', dk.Perm dk' ∧ GIdx sz' dk' := by
  induction h generalizing dk with
  | nil => exact ⟨dk, List.Perm.refl _, hd⟩
  | cons a _ ih =>
    obtain ⟨h1, h2⟩ := hd
    cases dk with
    | nil => simp at h1
    | cons e dk =>
      simp only [List.map_cons, List.cons.injEq] at h1
      obtain ⟨dk', p, q1, q2⟩ := ih ⟨h1.2, fun e he => h2 e (by simp [he])⟩
      refine ⟨e :: dk', p.cons e, by simp [h1.1, q1], ?_⟩
      intro e' he'
      rcases List.mem_cons.1 he' with rfl | he'
      · exact h2 _ (by simp)
      · exact q2 _ he'
  | swap a b l =>
    obtain ⟨h1, h2⟩ := hd
    match dk, h1, h2 with
    | [], h1, _ => simp at h1
    | [_], h1, _ => simp at h1
    | e :: f :: dk, h1, h2 =>
      simp only [List.map_cons, List.cons.injEq] at h1
      refine ⟨f :: e :: dk, List.Perm.swap _ _ _, by simp [h1], ?_⟩
      intro e' he'; exact h2 e' (by simp at he' ⊢; tauto)
  | trans _ _ ih1 ih2 =>
    obtain ⟨d1, p1, i1⟩ := ih1 hd
    obtain ⟨d2, p2, i2⟩ := ih2 i1
    exact ⟨d2, p1.trans p2, i2⟩

/-- index vectors and dropped dimensions -/
theorem GIdx.filter (p : Dim × τ → Bool) (hp : ∀ e, p e = false → e.1.n = 1 ∧ K e.2 1 0 0 = 1)
    {sz : List (Dim × τ)} {dk : List ((Dim × τ) × ℕ)} (hd : GIdx sz dk) :
    GIdx (sz.filter p) (dk.filter fun e => p e.1) ∧ gOut (dk.filter fun e => p e.1) = gOut dk ∧
    ∀ x, gSum K (dk.filter fun e => p e.1) x = gSum K dk x := by
  obtain ⟨h1, h2⟩ := hd
  subst h1
  induction dk with
  | nil => exact ⟨⟨rfl, by simp⟩, rfl, fun _ => rfl⟩
  | cons e dk ih =>
    obtain ⟨⟨i1, i2⟩, i3, i4⟩ := ih (fun e he => h2 e (by simp [he]))
    obtain ⟨⟨d, t⟩, k⟩ := e
    by_cases hd : p (d, t) = true
    · rw [List.filter_cons_of_pos (by simp [hd])]
      refine ⟨⟨?_, ?_⟩, ?_, ?_⟩
      · rw [List.map_cons, List.map_cons, List.filter_cons_of_pos (by simp [hd]), i1]
      · intro e he
        rcases List.mem_cons.1 he with rfl | he
        · exact h2 _ (by simp)
        · exact i2 e he
      · rw [gOut_cons, gOut_cons, i3]
      · intro x; simp only [gSum, i4]
    · obtain ⟨hn, hK⟩ := hp (d, t) (by simpa using hd)
      simp only at hn hK
      have hk : k = 0 := by have := h2 ((d, t), k) (by simp); simp [hn] at this; exact this
      rw [List.filter_cons_of_neg (by simp [hd])]
      refine ⟨⟨?_, i2⟩, ?_, ?_⟩
      · rw [List.map_cons, List.filter_cons_of_neg (by simp [hd]), i1]
      · rw [i3, gOut_cons]; simp [hk]
      · intro x; rw [i4]; simp [gSum, hn, hk, hK]

/-! ### locations -/

theorem pairs_append (a b : List Dim) : pairs (append (some a) (some b)) = (pairs (some a)).bind fun x => (pairs (some b)).map fun y => x + y := by
  rw [append, pairs_some, List.map_append, offs_append]; rfl

theorem mem_pairs_cons {d : Dim} {l : List Dim} {p : ℤ × ℤ} :
    p ∈ pairs (some (d :: l)) ↔ ∃ j < d.n, ∃ q ∈ pairs (some l), p = (j * d.is + q.1, j * d.os + q.2) := by
  simp only [pairs, List.map_cons, offs, Multiset.mem_bind, Multiset.mem_map, Multiset.mem_range]
  constructor
  · rintro ⟨j, hj, q, hq, rfl⟩; exact ⟨j, hj, q, hq, by ext <;> simp⟩
  · rintro ⟨j, hj, q, hq, rfl⟩; exact ⟨j, hj, q, hq, by ext <;> simp⟩

theorem mem_pairs_append {a b : List Dim} {p : ℤ × ℤ} :
    p ∈ pairs (some (a ++ b)) ↔ ∃ x ∈ pairs (some a), ∃ y ∈ pairs (some b), p = x + y := by
  have := pairs_append a b
  rw [append] at this
  rw [this]; simp only [Multiset.mem_bind, Multiset.mem_map]
  constructor
  · rintro ⟨x, hx, y, hy, rfl⟩; exact ⟨x, hx, y, hy, rfl⟩
  · rintro ⟨x, hx, y, hy, rfl⟩; exact ⟨x, hx, y, hy, rfl⟩

theorem mem_ins {t : Tensor} {a : ℤ} : a ∈ ins t ↔ ∃ b, (a, b) ∈ pairs t := by
  rw [ins_eq, Multiset.mem_map]
  constructor
  · rintro ⟨⟨x, y⟩, h, rfl⟩; exact ⟨y, h⟩
  · rintro ⟨y, h⟩; exact ⟨(a, y), h, rfl⟩
theorem mem_outs {t : Tensor} {b : ℤ} : b ∈ outs t ↔ ∃ a, (a, b) ∈ pairs t := by
  rw [outs_eq, Multiset.mem_map]
  constructor
  · rintro ⟨⟨x, y⟩, h, rfl⟩; exact ⟨x, h⟩
  · rintro ⟨y, h⟩; exact ⟨(y, b), h, rfl⟩

theorem locT_none (δi δo : ℤ) (sz : List (Dim × τ)) : locT V δi δo sz none = none := rfl
theorem locT_some (δi δo : ℤ) (sz : List (Dim × τ)) (l : List Dim) :
    locT V δi δo sz (some l) = some (⟨Elt.nc V, δi, δo⟩ :: (sz.map Prod.fst ++ l)) := rfl

theorem mem_locT {δi δo : ℤ} {sz : List (Dim × τ)} {vec : Tensor} {p : ℤ × ℤ} :
    p ∈ pairs (locT V δi δo sz vec) ↔
      ∃ c < Elt.nc V, ∃ s ∈ pairs (some (sz.map Prod.fst)), ∃ v ∈ pairs vec, p = (c * δi + (s.1 + v.1), c * δo + (s.2 + v.2)) := by
  cases vec with
  | none => rw [locT_none]; simp [pairs]
  | some l =>
    rw [locT_some, mem_pairs_cons]
    constructor
    · rintro ⟨c, hc, q, hq, rfl⟩
      obtain ⟨x, hx, y, hy, rfl⟩ := mem_pairs_append.1 hq
      exact ⟨c, hc, x, hx, y, hy, rfl⟩
    · rintro ⟨c, hc, x, hx, y, hy, rfl⟩
      exact ⟨c, hc, x + y, mem_pairs_append.2 ⟨x, hx, y, hy, rfl⟩, rfl⟩

/-- the output offset of an index vector is an output location -/
theorem gOut_mem {sz : List (Dim × τ)} {dk : List ((Dim × τ) × ℕ)} (h : GIdx sz dk) :
    ∃ a, (a, gOut dk) ∈ pairs (some (sz.map Prod.fst)) := by
  obtain ⟨rfl, h2⟩ := h
  induction dk with
  | nil => exact ⟨0, by simp [pairs, offs, gOut]⟩
  | cons e dk ih =>
    obtain ⟨a, ha⟩ := ih (fun e he => h2 e (by simp [he]))
    refine ⟨e.2 * e.1.1.is + a, ?_⟩
    rw [List.map_cons, List.map_cons, mem_pairs_cons]
    exact ⟨e.2, h2 e (by simp), _, ha, by rw [gOut_cons]⟩

theorem exists_idx {sz : List (Dim × τ)} {p : ℤ × ℤ} (h : p ∈ pairs (some (sz.map Prod.fst))) :
    ∃ dk, GIdx sz dk ∧ gOut dk = p.2 := by
  induction sz generalizing p with
  | nil => simp [pairs, offs] at h; exact ⟨[], ⟨rfl, by simp⟩, by simp [h]⟩
  | cons d sz ih =>
    rw [List.map_cons, mem_pairs_cons] at h
    obtain ⟨j, hj, q, hq, rfl⟩ := h
    obtain ⟨dk, ⟨h1, h2⟩, h3⟩ := ih hq
    refine ⟨(d, j) :: dk, ⟨by simp [h1], ?_⟩, by rw [gOut_cons, h3]⟩
    intro e he
    rcases List.mem_cons.1 he with rfl | he
    · exact hj
    · exact h2 e he

theorem val_congr {m m' : Ptr → ℝ} {p p' : Ptr} {δ δ' o o' : ℤ}
    (h : ∀ c < Elt.nc V, m (p + ((c : ℤ) * δ + o)) = m' (p' + ((c : ℤ) * δ' + o'))) : (val m p δ o : V) = val m' p' δ' o' :=
  Elt.dec_congr _ _ h

theorem val_shift (m : Ptr → ℝ) (p : Ptr) (δ s o : ℤ) : (val m (p + s) δ o : V) = val m p δ (s + o) := by
  apply val_congr; intro c _; rw [Ptr.add_add]; congr 2; ring

/-! ### frames -/

theorem Frame.refl (st : State) (W : Ptr → Prop) : Frame st st W := ⟨le_refl _, fun _ _ _ => rfl⟩

theorem Frame.trans {a b c : State} {W W' : Ptr → Prop} (h1 : Frame a b W) (h2 : Frame b c W')
    {W2 : Ptr → Prop} (hw : ∀ q, q.blk < a.next → W q → W2 q) (hw' : ∀ q, q.blk < a.next → W' q → W2 q) : Frame a c W2 :=
  ⟨h1.next.trans h2.next, fun q hq hn => by
    rw [h2.mem q (lt_of_lt_of_le hq h1.next) (fun h => hn (hw' q hq h)), h1.mem q hq (fun h => hn (hw q hq h))]⟩

theorem Frame.mono {a b : State} {W W' : Ptr → Prop} (h1 : Frame a b W) (hw : ∀ q, q.blk < a.next → W q → W' q) : Frame a b W' :=
  ⟨h1.next, fun q hq hn => h1.mem q hq (fun h => hn (hw q hq h))⟩

end Spec
end FFTW
