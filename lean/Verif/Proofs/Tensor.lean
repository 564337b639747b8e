import Verif.Spec.Dft
import Mathlib.Tactic.Ring
import Mathlib.Tactic.Linarith

namespace FFTW.Tensor
open FFTW.Spec

/-- the pair of strides -/
def Dim.pr (d : Dim) : ℕ × (ℤ × ℤ) := (d.n, (d.is, d.os))

theorem pairs_some (l : List Dim) : pairs (some l) = offs (l.map Dim.pr) := rfl

theorem ins_eq (t : Tensor) : ins t = (pairs t).map Prod.fst := by
  cases t with
  | none => rfl
  | some l =>
    have := offs_map (AddMonoidHom.fst ℤ ℤ) (l.map Dim.pr)
    rw [List.map_map] at this
    exact this.symm

theorem outs_eq (t : Tensor) : outs t = (pairs t).map Prod.snd := by
  cases t with
  | none => rfl
  | some l =>
    have := offs_map (AddMonoidHom.snd ℤ ℤ) (l.map Dim.pr)
    rw [List.map_map] at this
    exact this.symm

theorem pairs_perm {l l' : List Dim} (h : l.Perm l') : pairs (some l) = pairs (some l') := by
  rw [pairs_some, pairs_some]; exact offs_perm (h.map _)

theorem pairs_cons_one {d : Dim} (h : d.n = 1) (l : List Dim) : pairs (some (d :: l)) = pairs (some l) := by
  rw [pairs_some, List.map_cons, Dim.pr, h, offs_one]; rfl

theorem pairs_cons_congr (d : Dim) {l l' : List Dim} (h : pairs (some l) = pairs (some l')) :
    pairs (some (d :: l)) = pairs (some (d :: l')) := by
  rw [pairs_some, pairs_some] at *
  simp only [List.map_cons, Dim.pr, offs]
  change offs (l.map fun d => (d.n, (d.is, d.os))) = offs (l'.map fun d => (d.n, (d.is, d.os))) at h
  rw [show (List.map Dim.pr l) = l.map fun d => (d.n, (d.is, d.os)) from rfl, h]; rfl

theorem pairs_reallyCompress (l : List Dim) : pairs (some (reallyCompress l)) = pairs (some l) := by
  induction l with
  | nil => rfl
  | cons d l ih =>
    unfold reallyCompress at *
    by_cases h : d.n = 1
    · rw [List.filter_cons_of_neg (by simp [h]), ih, pairs_cons_one h]
    · rw [List.filter_cons_of_pos (by simp [h])]
      exact pairs_cons_congr d ih

theorem pairs_merge (c b : Dim) (l : List Dim) (h1 : c.is = b.is * b.n) (h2 : c.os = b.os * b.n) :
    pairs (some (c :: b :: l)) = pairs (some ({ n := c.n * b.n, is := b.is, os := b.os } :: l)) := by
  rw [pairs_some, pairs_some]
  simp only [List.map_cons]
  have := offs_merge c.n b.n ((b.is, b.os) : ℤ × ℤ) (l.map Dim.pr)
  have e : b.n • ((b.is, b.os) : ℤ × ℤ) = (c.is, c.os) := by
    ext <;> simp [h1, h2] <;> ring
  rw [e] at this
  exact this

theorem pairs_mergeLoop (rest : List Dim) : ∀ cur prev : Dim, cur.is = prev.is → cur.os = prev.os →
    pairs (some (mergeLoop cur prev rest)) = pairs (some (cur :: rest)) := by
  induction rest with
  | nil => intro cur prev _ _; rfl
  | cons b rest ih =>
    intro cur prev h1 h2
    rw [mergeLoop]
    split
    · rename_i hc
      simp only [stridesContig, decide_eq_true_eq] at hc
      rw [ih { n := cur.n * b.n, is := b.is, os := b.os } b rfl rfl, pairs_merge cur b rest (by rw [h1, hc.1]) (by rw [h2, hc.2])]
    · exact pairs_cons_congr cur (ih b b rfl rfl)

variable [CLib]

theorem canonicalize_perm (l : List Dim) : (canonicalize l).Perm l := by
  unfold canonicalize; split
  · exact CLib.perm _ _
  · exact List.Perm.refl _

theorem pairs_compressContiguous (t : Tensor) : pairs (compressContiguous t) = pairs t := by
  cases t with
  | none => rfl
  | some l =>
    unfold compressContiguous
    simp only
    split
    · rename_i h
      symm
      change pairs (some l) = 0
      rw [← Multiset.card_eq_zero, pairs_some, card_offs]
      simpa [tensorSz, List.map_map, Function.comp_def, Dim.pr] using h
    · split
      · exact pairs_reallyCompress l
      · have hp := CLib.perm compareByIstride (reallyCompress l)
        split
        · rename_i h; rw [h] at hp; rw [← pairs_reallyCompress l]; exact pairs_perm hp
        · rename_i d rest h
          rw [h] at hp
          rw [pairs_perm (canonicalize_perm _), pairs_mergeLoop rest d d rfl rfl, pairs_perm hp, pairs_reallyCompress]

theorem pairs_compress (l : List Dim) : pairs (some (compress l)) = pairs (some l) := by
  unfold compress
  rw [pairs_perm (canonicalize_perm _), pairs_reallyCompress]

omit [CLib] in
theorem pairs_copyInplace_IS (t : Tensor) : pairs (copyInplace .IS t) = (ins t).map fun x => (x, x) := by
  cases t with
  | none => rfl
  | some l =>
    have := offs_map ((AddMonoidHom.id ℤ).prod (AddMonoidHom.id ℤ)) (l.map fun d => (d.n, d.is))
    simp only [copyInplace, Option.map_some, pairs_some, ins]
    rw [show (fun x : ℤ => (x, x)) = ⇑((AddMonoidHom.id ℤ).prod (AddMonoidHom.id ℤ)) from rfl, this]
    simp only [List.map_map]
    rfl

omit [CLib] in
theorem pairs_copyInplace_OS (t : Tensor) : pairs (copyInplace .OS t) = (outs t).map fun x => (x, x) := by
  cases t with
  | none => rfl
  | some l =>
    have := offs_map ((AddMonoidHom.id ℤ).prod (AddMonoidHom.id ℤ)) (l.map fun d => (d.n, d.os))
    simp only [copyInplace, Option.map_some, pairs_some, outs]
    rw [show (fun x : ℤ => (x, x)) = ⇑((AddMonoidHom.id ℤ).prod (AddMonoidHom.id ℤ)) from rfl, this]
    simp only [List.map_map]
    rfl

theorem inplaceLocations_sound {sz vecsz : Tensor} (h : inplaceLocations sz vecsz = true) :
    ins (append sz vecsz) = outs (append sz vecsz) := by
  simp only [inplaceLocations, tensorEqual, decide_eq_true_eq] at h
  have h2 : pairs (copyInplace .IS (append sz vecsz)) = pairs (copyInplace .OS (append sz vecsz)) := by
    rw [← pairs_compressContiguous (copyInplace .IS _), h, pairs_compressContiguous]
  rw [pairs_copyInplace_IS, pairs_copyInplace_OS] at h2
  have := congrArg (Multiset.map Prod.fst) h2
  simpa [Multiset.map_map, Function.comp_def] using this

/-! ### the DFT sum -/

theorem dftSum_perm {a b : List (Dim × ℕ)} (h : a.Perm b) : ∀ x, dftSum a x = dftSum b x := by
  induction h with
  | nil => intro x; rfl
  | cons e _ ih => intro x; obtain ⟨d, k⟩ := e; simp only [dftSum, ih]
  | swap e f l =>
    intro x; obtain ⟨d, k⟩ := e; obtain ⟨d', k'⟩ := f
    simp only [dftSum, Finset.mul_sum]
    rw [Finset.sum_comm]
    refine Finset.sum_congr rfl fun i _ => Finset.sum_congr rfl fun j _ => ?_
    rw [← mul_assoc, ← mul_assoc, mul_comm (ω d'.n ^ _)]
    congr 1
    congr 1
    funext o
    congr 1; ring
  | trans _ _ ih1 ih2 => intro x; rw [ih1, ih2]

theorem outOff_perm {a b : List (Dim × ℕ)} (h : a.Perm b) : outOff a = outOff b := by
  unfold outOff; exact (h.map _).sum_eq

theorem dftSum_append (a b : List (Dim × ℕ)) : ∀ x, dftSum (a ++ b) x = dftSum a fun o1 => dftSum b fun o2 => x (o1 + o2) := by
  induction a with
  | nil => intro x; simp [dftSum]
  | cons e a ih =>
    intro x; obtain ⟨d, k⟩ := e
    simp only [List.cons_append, dftSum, ih, add_assoc]

theorem outOff_append (a b : List (Dim × ℕ)) : outOff (a ++ b) = outOff a + outOff b := by simp [outOff]

theorem dftSum_congr {dk : List (Dim × ℕ)} : ∀ {x y : ℤ → ℂ}, (∀ o ∈ ins (some (dk.map Prod.fst)), x o = y o) → dftSum dk x = dftSum dk y := by
  induction dk with
  | nil => intro x y h; exact h 0 (by simp [ins, offs])
  | cons e dk ih =>
    intro x y h
    obtain ⟨d, k⟩ := e
    simp only [dftSum]
    refine Finset.sum_congr rfl fun j hj => ?_
    congr 1
    apply ih
    intro o ho
    apply h
    simp only [ins, List.map_cons, offs, Multiset.mem_bind, Multiset.mem_map, Multiset.mem_range]
    refine ⟨j, Finset.mem_range.1 hj, o, ?_, by simp⟩
    simpa [ins] using ho

/-- changing the input strides -/
theorem dftSum_restride {dk : List (Dim × ℕ)} (f : Dim → Dim) (hn : ∀ d, (f d).n = d.n) : ∀ {x y : ℤ → ℂ},
    (∀ p ∈ offs (dk.map fun e => (e.1.n, ((e.1.is, (f e.1).is) : ℤ × ℤ))), y p.2 = x p.1) →
    dftSum (dk.map fun e => (f e.1, e.2)) y = dftSum dk x := by
  induction dk with
  | nil => intro x y h; exact h (0, 0) (by simp [offs])
  | cons e dk ih =>
    intro x y h
    obtain ⟨d, k⟩ := e
    simp only [List.map_cons, dftSum, hn]
    refine Finset.sum_congr rfl fun j hj => ?_
    congr 1
    apply ih
    intro p hp
    apply h (j * d.is + p.1, j * (f d).is + p.2)
    simp only [List.map_cons, offs, Multiset.mem_bind, Multiset.mem_map, Multiset.mem_range]
    exact ⟨j, Finset.mem_range.1 hj, p, hp, by ext <;> simp⟩

theorem IsIdx.perm {sz sz' : List Dim} (h : sz.Perm sz') {dk : List (Dim × ℕ)} (hd : IsIdx sz dk) : ∃ dk', dk.Perm dk' ∧ IsIdx sz' dk' := by
  induction h generalizing dk with
  | nil => exact ⟨dk, List.Perm.refl _, hd⟩
  | cons a _ ih =>
    obtain ⟨h1, h2⟩ := hd
    cases dk with
    | nil => simp at h1
    | cons e dk =>
      simp only [List.map_cons, List.cons.injEq] at h1
      obtain ⟨dk', p, q1, q2⟩ := ih ⟨h1.2, fun e he => h2 e (by simp [he])⟩
      refine ⟨e :: dk', p.cons e, by simp [h1.1, q1], ?_⟩
      intro e' he'
      rcases List.mem_cons.1 he' with rfl | he'
      · exact h2 _ (by simp)
      · exact q2 _ he'
  | swap a b l =>
    obtain ⟨h1, h2⟩ := hd
    match dk, h1, h2 with
    | [], h1, _ => simp at h1
    | [_], h1, _ => simp at h1
    | e :: f :: dk, h1, h2 =>
      simp only [List.map_cons, List.cons.injEq] at h1
      refine ⟨f :: e :: dk, List.Perm.swap _ _ _, by simp [h1], ?_⟩
      intro e' he'; exact h2 e' (by simp at he' ⊢; tauto)
  | trans _ _ ih1 ih2 =>
    obtain ⟨d1, p1, i1⟩ := ih1 hd
    obtain ⟨d2, p2, i2⟩ := ih2 i1
    exact ⟨d2, p1.trans p2, i2⟩

/-- index vectors and extents 1 -/
theorem IsIdx.filter {sz : List Dim} {dk : List (Dim × ℕ)} (hd : IsIdx sz dk) :
    IsIdx (reallyCompress sz) (dk.filter fun e => e.1.n ≠ 1) ∧ outOff (dk.filter fun e => e.1.n ≠ 1) = outOff dk ∧
    ∀ x, dftSum (dk.filter fun e => e.1.n ≠ 1) x = dftSum dk x := by
  obtain ⟨h1, h2⟩ := hd
  subst h1
  induction dk with
  | nil => exact ⟨⟨rfl, by simp⟩, rfl, fun _ => rfl⟩
  | cons e dk ih =>
    obtain ⟨⟨i1, i2⟩, i3, i4⟩ := ih (fun e he => h2 e (by simp [he]))
    obtain ⟨d, k⟩ := e
    by_cases hd : d.n = 1
    · have hk : k = 0 := by have := h2 (d, k) (by simp); simp [hd] at this; exact this
      rw [List.filter_cons_of_neg (by simp [hd])]
      refine ⟨⟨?_, i2⟩, ?_, ?_⟩
      · unfold reallyCompress at *; rw [List.map_cons, List.filter_cons_of_neg (by simp [hd]), i1]
      · rw [i3]; simp [outOff, hk]
      · intro x; rw [i4]; simp [dftSum, hd, hk]
    · rw [List.filter_cons_of_pos (by simp [hd])]
      refine ⟨⟨?_, ?_⟩, ?_, ?_⟩
      · unfold reallyCompress at *; rw [List.map_cons, List.map_cons, List.filter_cons_of_pos (by simp [hd]), i1]
      · intro e he
        rcases List.mem_cons.1 he with rfl | he
        · exact h2 _ (by simp)
        · exact i2 e he
      · simp only [outOff, List.map_cons, List.sum_cons] at *; rw [i3]
      · intro x; simp only [dftSum, i4]

end FFTW.Tensor
