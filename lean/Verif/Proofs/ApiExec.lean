import Verif.Spec.Api
import Verif.Model.Api
import Verif.Proofs.DftMath
import Verif.Proofs.DftSolvers

namespace FFTW.Api
open Tensor Spec DftS

/-! ### index vectors -/

/-- all index vectors -/
def boxes : List ℕ → Multiset (List ℕ)
  | [] => {[]}
  | n :: ns => (Multiset.range n).bind fun j => (boxes ns).map fun js => j :: js

theorem box_nil {k : List ℕ} : Box [] k ↔ k = [] := by
  unfold Box; exact List.forall₂_nil_right_iff

theorem box_cons {n : ℕ} {ns k : List ℕ} : Box (n :: ns) k ↔ ∃ j js, j < n ∧ Box ns js ∧ k = j :: js := by
  unfold Box; exact List.forall₂_cons_right_iff

theorem mem_boxes {n k : List ℕ} : k ∈ boxes n ↔ Box n k := by
  induction n generalizing k with
  | nil => rw [box_nil]; simp [boxes]
  | cons n ns ih =>
    rw [box_cons]
    simp only [boxes, Multiset.mem_bind, Multiset.mem_range, Multiset.mem_map]
    constructor
    · rintro ⟨j, hj, js, h, rfl⟩; exact ⟨j, js, hj, ih.1 h, rfl⟩
    · rintro ⟨j, js, hj, h, rfl⟩; exact ⟨j, hj, js, ih.2 h, rfl⟩

theorem nodup_boxes (n : List ℕ) : (boxes n).Nodup := by
  induction n with
  | nil => simp [boxes]
  | cons n ns ih =>
    rw [boxes, Multiset.nodup_bind]
    refine ⟨fun j _ => ih.map fun a b h => (List.cons.inj h).2, (Multiset.nodup_range n).pairwise fun a _ b _ hne => Multiset.disjoint_left.2 ?_⟩
    intro x hx hx'
    obtain ⟨_, _, rfl⟩ := Multiset.mem_map.1 hx
    obtain ⟨_, _, e⟩ := Multiset.mem_map.1 hx'
    exact hne (List.cons.inj e).1.symm

theorem dot_nil (k : List ℕ) : dot [] k = 0 := by simp [dot]
theorem dot_cons (s : ℤ) (l : List ℤ) (j : ℕ) (js : List ℕ) : dot (s :: l) (j :: js) = s * j + dot l js := by simp [dot]

theorem offs_boxes (l : List (ℕ × ℤ)) : offs l = (boxes (l.map Prod.fst)).map (dot (l.map Prod.snd)) := by
  induction l with
  | nil => simp [offs, boxes, dot_nil]
  | cons d l ih =>
    obtain ⟨n, s⟩ := d
    simp only [offs, List.map_cons, boxes, Multiset.map_bind, Multiset.map_map]
    refine Multiset.bind_congr fun j _ => ?_
    rw [ih, Multiset.map_map]
    refine Multiset.map_congr rfl fun js _ => ?_
    simp [dot_cons, mul_comm]

theorem box_append {a b k : List ℕ} : Box (a ++ b) k ↔ ∃ k1 k2, Box a k1 ∧ Box b k2 ∧ k = k1 ++ k2 := by
  induction a generalizing k with
  | nil =>
    constructor
    · intro h; exact ⟨[], k, box_nil.2 rfl, h, rfl⟩
    · rintro ⟨k1, k2, h1, h2, rfl⟩; obtain rfl := box_nil.1 h1; exact h2
  | cons n a ih =>
    simp only [List.cons_append, box_cons]
    constructor
    · rintro ⟨j, js, hj, h, rfl⟩
      obtain ⟨k1, k2, h1, h2, rfl⟩ := ih.1 h
      exact ⟨j :: k1, k2, ⟨j, k1, hj, h1, rfl⟩, h2, rfl⟩
    · rintro ⟨_, k2, ⟨j, k1, hj, h1, rfl⟩, h2, rfl⟩
      exact ⟨j, k1 ++ k2, hj, ih.2 ⟨k1, k2, h1, h2, rfl⟩, rfl⟩

theorem dot_append {s s' : List ℤ} {j j' : List ℕ} (h : s.length = j.length) : dot (s ++ s') (j ++ j') = dot s j + dot s' j' := by
  unfold dot; rw [List.zipWith_append h, List.sum_append]

theorem box_length {n k : List ℕ} (h : Box n k) : k.length = n.length := List.Forall₂.length_eq h

theorem mem_pairs_box {l : List Dim} {x : ℤ × ℤ} :
    x ∈ pairs (some l) ↔ ∃ b, Box (l.map (·.n)) b ∧ x = (dot (l.map (·.is)) b, dot (l.map (·.os)) b) := by
  induction l generalizing x with
  | nil =>
    simp only [pairs, List.map_nil, offs, Multiset.mem_singleton, dot_nil, box_nil, exists_eq_left]; rfl
  | cons d l ih =>
    rw [mem_pairs_cons, List.map_cons]
    simp only [box_cons]
    constructor
    · rintro ⟨j, hj, q, hq, rfl⟩
      obtain ⟨b, hb, rfl⟩ := ih.1 hq
      exact ⟨j :: b, ⟨j, b, hj, hb, rfl⟩, by simp [dot_cons, mul_comm]⟩
    · rintro ⟨_, ⟨j, b, hj, hb, rfl⟩, rfl⟩
      exact ⟨j, hj, _, ih.2 ⟨b, hb, rfl⟩, by simp [dot_cons, mul_comm]⟩

/-- distinct index vectors at distinct offsets, for the two components -/
theorem nodup_two {δ : ℤ} {l l' : List (ℕ × ℤ)}
    (h : ∀ b k b' k', Box (l'.map Prod.fst) b → Box (l.map Prod.fst) k → Box (l'.map Prod.fst) b' → Box (l.map Prod.fst) k' →
      dot (l'.map Prod.snd) b + dot (l.map Prod.snd) k = dot (l'.map Prod.snd) b' + dot (l.map Prod.snd) k' → b = b' ∧ k = k')
    (h2 : ∀ b k b' k', Box (l'.map Prod.fst) b → Box (l.map Prod.fst) k → Box (l'.map Prod.fst) b' → Box (l.map Prod.fst) k' →
      dot (l'.map Prod.snd) b + dot (l.map Prod.snd) k ≠ δ + (dot (l'.map Prod.snd) b' + dot (l.map Prod.snd) k')) :
    (offs ((2, δ) :: (l ++ l'))).Nodup := by
  rw [offs_boxes]
  refine (nodup_boxes _).map_on ?_
  intro x hx y hy he
  rw [mem_boxes, List.map_cons, box_cons] at hx hy
  obtain ⟨c, x, hc, hx, rfl⟩ := hx
  obtain ⟨c', y, hc', hy, rfl⟩ := hy
  rw [List.map_append, box_append] at hx hy
  obtain ⟨k, b, hk, hb, rfl⟩ := hx
  obtain ⟨k', b', hk', hb', rfl⟩ := hy
  rw [List.map_cons, dot_cons, dot_cons, List.map_append, dot_append (by rw [box_length hk]; simp), dot_append (by rw [box_length hk']; simp)] at he
  simp only at hc hc' he
  rcases (by omega : c = 0 ∨ c = 1) with rfl | rfl <;> rcases (by omega : c' = 0 ∨ c' = 1) with rfl | rfl
  · obtain ⟨rfl, rfl⟩ := h b k b' k' hb hk hb' hk' (by push_cast at he; linarith); rfl
  · exact absurd (by push_cast at he; linarith) (h2 b k b' k' hb hk hb' hk')
  · exact absurd (by push_cast at he; linarith) (h2 b' k' b k hb' hk' hb hk)
  · obtain ⟨rfl, rfl⟩ := h b k b' k' hb hk hb' hk' (by push_cast at he; linarith); rfl

/-! ### the transform -/

theorem gidx_zip {τ : Type} {sz : List (Dim × τ)} {k : List ℕ} (h : Box (sz.map (·.1.n)) k) : GIdx sz (sz.zip k) := by
  induction sz generalizing k with
  | nil => exact ⟨rfl, by simp⟩
  | cons d sz ih =>
    rw [List.map_cons, box_cons] at h
    obtain ⟨j, js, hj, hjs, rfl⟩ := h
    obtain ⟨h1, h2⟩ := ih hjs
    refine ⟨by simp [h1], ?_⟩
    intro e he
    rw [List.zip_cons_cons, List.mem_cons] at he
    rcases he with rfl | he
    · exact hj
    · exact h2 e he

theorem gOut_zip {τ : Type} {sz : List (Dim × τ)} {k : List ℕ} (h : k.length = sz.length) : gOut (sz.zip k) = dot (sz.map (·.1.os)) k := by
  induction sz generalizing k with
  | nil => simp [gOut, dot_nil]
  | cons d sz ih =>
    obtain ⟨j, js, rfl⟩ : ∃ j js, k = j :: js := by cases k <;> simp_all
    rw [List.zip_cons_cons, List.map_cons, dot_cons, ← ih (by simpa using h)]
    simp [gOut, mul_comm]

theorem ω_pow_exp (n m : ℕ) : ω n ^ m = Complex.exp ((-1 : ℤ) * (2 * Real.pi * Complex.I) * m / n) := by
  rw [ω, ← Complex.exp_nat_mul]; congr 1; push_cast; ring

theorem sumBox_mul {V : Type} [Semiring V] (n : List ℕ) (c : V) (f : List ℕ → V) : c * sumBox n f = sumBox n fun j => c * f j := by
  induction n generalizing f with
  | nil => rfl
  | cons n ns ih => simp only [sumBox, Finset.mul_sum, ih]

theorem gSum_zip {sz : List Dim} {k : List ℕ} (h : k.length = sz.length) (x : ℤ → ℂ) :
    gSum dftK ((tag sz).zip k) x = sumBox (sz.map (·.n)) fun j => twist (-1) (sz.map (·.n)) j k * x (dot (sz.map (·.is)) j) := by
  induction sz generalizing k x with
  | nil => simp [tag, gSum, sumBox, twist, dot_nil]
  | cons d sz ih =>
    obtain ⟨k, ks, rfl⟩ : ∃ j js, k = j :: js := by cases k <;> simp_all
    have e : (tag (d :: sz)).zip (k :: ks) = ((d, ()), k) :: (tag sz).zip ks := rfl
    rw [e, gSum, List.map_cons, sumBox]
    refine Finset.sum_congr rfl fun j _ => ?_
    rw [ih (by simpa using h), sumBox_mul]
    congr 1; funext js
    rw [twist, dftK, ω_pow_exp, List.map_cons, dot_cons]
    push_cast
    rw [mul_assoc, mul_comm (d.is) (j : ℤ)]; ring_nf

/-- exchange of real and imaginary part -/
def sw (z : ℂ) : ℂ := ⟨z.im, z.re⟩

theorem sw_eq (z : ℂ) : sw z = Complex.I * (starRingEnd ℂ) z := by apply Complex.ext <;> simp [sw]
theorem sw_sw (z : ℂ) : sw (sw z) = z := rfl
theorem sw_inj {z w : ℂ} (h : sw z = sw w) : z = w := by rw [← sw_sw z, h, sw_sw]

theorem sw_sumBox (n : List ℕ) (f : List ℕ → ℂ) : sw (sumBox n f) = sumBox n fun j => sw (f j) := by
  induction n generalizing f with
  | nil => rfl
  | cons n ns ih =>
    simp only [sumBox, ← ih]
    simp only [sw_eq, map_sum, Finset.mul_sum]

theorem conj_twist (s : ℤ) (n j k : List ℕ) : (starRingEnd ℂ) (twist s n j k) = twist (-s) n j k := by
  induction n generalizing j k with
  | nil => simp [twist]
  | cons n ns ih =>
    cases j with
    | nil => simp [twist]
    | cons j js =>
      cases k with
      | nil => simp [twist]
      | cons k ks =>
        rw [twist, twist, map_mul, ih, ← Complex.exp_conj]
        congr 2
        have e2 : (starRingEnd ℂ) 2 = 2 := Complex.conj_ofNat 2
        simp [map_div₀, Complex.conj_ofReal, e2]

theorem sw_twist (s : ℤ) (n j k : List ℕ) (z : ℂ) : sw (twist s n j k * z) = twist (-s) n j k * sw z := by
  rw [sw_eq, sw_eq, map_mul, conj_twist]; ring

/-- exchanging real and imaginary parts of input and output turns the sign -/
theorem dfts_sw {s : ℤ} {L : Batch} {gi go : ℤ → ℂ} (h : Dfts s L (fun x => sw (gi x)) (fun x => sw (go x))) : Dfts (-s) L gi go := by
  intro b k hb hk
  apply sw_inj
  refine (h b k hb hk).trans ?_
  rw [sw_sumBox]
  congr 1; funext j
  rw [sw_twist, neg_neg]

/-- guru dimensions -/
structure Layout where
  dims : List Dim
  loops : List Dim
namespace Layout
/-- the batch they describe -/
abbrev batch (L : Layout) : Batch := guruBatch L.dims L.loops
abbrev n (L : Layout) : List ℕ := L.batch.n
abbrev v (L : Layout) : List ℕ := L.batch.v
abbrev inp (L : Layout) (b j : List ℕ) : ℤ := L.batch.inp b j
abbrev out (L : Layout) (b k : List ℕ) : ℤ := L.batch.out b k
abbrev Inp (L : Layout) (x : ℤ) : Prop := L.batch.Inp x
abbrev Out (L : Layout) (x : ℤ) : Prop := L.batch.Out x
abbrev OutInj (L : Layout) : Prop := L.batch.OutInj
abbrev InInj (L : Layout) : Prop := L.batch.InInj
/-- no stride is negative -/
def NonNeg (L : Layout) : Prop := ∀ d, d ∈ L.dims ∨ d ∈ L.loops → 0 ≤ d.is ∧ 0 ≤ d.os
end Layout

/-! ### from the contract of a plan to the user's words -/

/-- all strides multiplied -/
def scale (c : ℤ) (L : Layout) : Layout := ⟨L.dims.map fun d => ⟨d.n, c * d.is, c * d.os⟩, L.loops.map fun d => ⟨d.n, c * d.is, c * d.os⟩⟩

theorem dot_scale (c : ℤ) (s : List ℤ) (j : List ℕ) : dot (s.map fun x => c * x) j = c * dot s j := by
  induction s generalizing j with
  | nil => simp [dot_nil]
  | cons s l ih =>
    cases j with
    | nil => simp [dot]
    | cons j js => rw [List.map_cons, dot_cons, dot_cons, ih]; ring

theorem scale_n (c : ℤ) (L : Layout) : (scale c L).batch.n = L.batch.n := by simp [scale, Layout.n, Layout.batch, guruBatch, List.map_map, Function.comp_def]
theorem scale_v (c : ℤ) (L : Layout) : (scale c L).batch.v = L.batch.v := by simp [scale, Layout.v, Layout.batch, guruBatch, List.map_map, Function.comp_def]
theorem scale_inp (c : ℤ) (L : Layout) (b j : List ℕ) : (scale c L).batch.inp b j = c * L.batch.inp b j := by
  have := dot_scale c (L.loops.map (·.is)) b
  have := dot_scale c (L.dims.map (·.is)) j
  simp only [scale, Layout.inp, Layout.batch, guruBatch, List.map_map, Function.comp_def] at *
  rw [mul_add]; omega
theorem scale_out (c : ℤ) (L : Layout) (b j : List ℕ) : (scale c L).batch.out b j = c * L.batch.out b j := by
  have := dot_scale c (L.loops.map (·.os)) b
  have := dot_scale c (L.dims.map (·.os)) j
  simp only [scale, Layout.out, Layout.batch, guruBatch, List.map_map, Function.comp_def] at *
  rw [mul_add]; omega

theorem mem_ins_layout {L : Layout} {δi δo a : ℤ} :
    a ∈ ins (locT ℂ δi δo (tag L.dims) (some L.loops)) ↔ ∃ c : ℕ, c < 2 ∧ ∃ x, L.Inp x ∧ a = (c : ℤ) * δi + x := by
  rw [mem_ins_locT, map_fst_tag]
  constructor
  · rintro ⟨c, hc, s, hs, v, hv, rfl⟩
    obtain ⟨_, hs⟩ := mem_ins.1 hs
    obtain ⟨_, hv⟩ := mem_ins.1 hv
    obtain ⟨j, hj, e⟩ := mem_pairs_box.1 hs
    obtain ⟨b, hb, e'⟩ := mem_pairs_box.1 hv
    refine ⟨c, hc, _, ⟨b, j, hb, hj, rfl⟩, ?_⟩
    rw [show s = _ from congrArg Prod.fst e, show v = _ from congrArg Prod.fst e']; simp only [guruBatch]; ring
  · rintro ⟨c, hc, _, ⟨b, j, hb, hj, rfl⟩, rfl⟩
    exact ⟨c, hc, _, mem_ins.2 ⟨_, mem_pairs_box.2 ⟨j, hj, rfl⟩⟩, _, mem_ins.2 ⟨_, mem_pairs_box.2 ⟨b, hb, rfl⟩⟩, by simp only [guruBatch]; ring⟩

theorem mem_outs_layout {L : Layout} {δi δo a : ℤ} :
    a ∈ outs (locT ℂ δi δo (tag L.dims) (some L.loops)) ↔ ∃ c : ℕ, c < 2 ∧ ∃ x, L.Out x ∧ a = (c : ℤ) * δo + x := by
  rw [mem_outs_locT, map_fst_tag]
  constructor
  · rintro ⟨c, hc, s, hs, v, hv, rfl⟩
    obtain ⟨_, hs⟩ := mem_outs.1 hs
    obtain ⟨_, hv⟩ := mem_outs.1 hv
    obtain ⟨j, hj, e⟩ := mem_pairs_box.1 hs
    obtain ⟨b, hb, e'⟩ := mem_pairs_box.1 hv
    refine ⟨c, hc, _, ⟨b, j, hb, hj, rfl⟩, ?_⟩
    rw [show s = _ from congrArg Prod.snd e, show v = _ from congrArg Prod.snd e']; simp only [guruBatch]; ring
  · rintro ⟨c, hc, _, ⟨b, j, hb, hj, rfl⟩, rfl⟩
    exact ⟨c, hc, _, mem_outs.2 ⟨_, mem_pairs_box.2 ⟨j, hj, rfl⟩⟩, _, mem_outs.2 ⟨_, mem_pairs_box.2 ⟨b, hb, rfl⟩⟩, by simp only [guruBatch]; ring⟩

/-- well-formedness in the user's words -/
theorem wf_layout {L : Layout} {δi δo : ℤ} {inpl nd : Bool} (ho : L.OutInj) (ho2 : ∀ x y, L.Out x → L.Out y → x ≠ δo + y)
    (hi : nd = false → L.InInj) (hi2 : nd = false → ∀ x y, L.Inp x → L.Inp y → x ≠ δi + y)
    (he : inpl = true → δi = δo ∧ ins (locT ℂ δi δo (tag L.dims) (some L.loops)) = outs (locT ℂ δi δo (tag L.dims) (some L.loops))) :
    WF ℂ (tag L.dims) (some L.loops) δi δo inpl nd := by
  refine ⟨?_, fun h => ?_, fun h => (he h).2, fun h => (he h).1⟩
  · rw [locT_some, map_fst_tag]
    simp only [outs, List.map_cons, List.map_append]
    apply nodup_two
    · simp only [List.map_map, Function.comp_def]; exact ho
    · simp only [List.map_map, Function.comp_def]
      intro b k b' k' hb hk hb' hk'
      exact ho2 _ _ ⟨b, k, hb, hk, rfl⟩ ⟨b', k', hb', hk', rfl⟩
  · rw [locT_some, map_fst_tag]
    simp only [ins, List.map_cons, List.map_append]
    apply nodup_two
    · simp only [List.map_map, Function.comp_def]; exact hi h
    · simp only [List.map_map, Function.comp_def]
      intro b k b' k' hb hk hb' hk'
      exact hi2 h _ _ ⟨b, k, hb, hk, rfl⟩ ⟨b', k', hb', hk', rfl⟩

/-- the contract of a plan in the user's words, split format -/
theorem dfts_of_GOK {L : Layout} {δi δo : ℤ} {inpl nd : Bool} {f : Ptr → Ptr → State → State}
    (h : GOK dftK (tag L.dims) (some L.loops) δi δo inpl nd f) (wf : WF ℂ (tag L.dims) (some L.loops) δi δo inpl nd)
    {I O : Ptr} {st : State} (hc : Compat (locT ℂ δi δo (tag L.dims) (some L.loops)) inpl I O st) :
    Dfts (-1) L.batch (fun x => val st.mem I δi x) (fun x => val (f I O st).mem O δo x) ∧
    OnlyChanges st (f I O st) (Writable (locT ℂ δi δo (tag L.dims) (some L.loops)) nd I O) := by
  obtain ⟨hf, hv⟩ := h wf I O st hc
  refine ⟨fun b k hb hk => ?_, hf.next, hf.mem⟩
  have hk' : Box ((tag L.dims).map (·.1.n)) k := by simpa [tag, List.map_map, Function.comp_def, Layout.n, Layout.batch, guruBatch] using hk
  have hl : k.length = L.dims.length := by rw [box_length hk]; simp [Layout.n, Layout.batch, guruBatch]
  have hl' : k.length = (tag L.dims).length := by simpa [tag] using hl
  have := hv _ (gidx_zip hk') _ (mem_pairs_box.2 ⟨b, hb, rfl⟩)
  rw [gOut_zip hl', gSum_zip hl] at this
  simp only [tag, List.map_map, Function.comp_def] at this
  rw [add_comm] at this
  refine this.trans ?_
  simp only [Layout.inp, Layout.n, Layout.batch, guruBatch, add_comm]

end FFTW.Api
