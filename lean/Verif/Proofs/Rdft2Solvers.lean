import Verif.Proofs.Rdft2Problem
import Verif.Proofs.Puts
import Verif.Proofs.Real1
import Verif.Proofs.RdftSolvers
import Verif.Proofs.DftCt
import Verif.Proofs.Transpose3

/-! # nop2, rank0-rdft2, vrank-geq1-rdft2 -/

namespace FFTW
open Tensor Spec DftS RdftS

theorem lt_two {t : ℕ} (h : t < 2) : t = 0 ∨ t = 1 := by omega

theorem spread_comm (F R : Multiset ℤ) : spread F R = F.bind fun x => R.map fun r => r + x := by
  unfold spread; exact Multiset.bind_map_comm _ _

theorem nodup_of_spread {F R : Multiset ℤ} {x : ℤ} (hx : x ∈ F) (h : (spread F R).Nodup) : R.Nodup := by
  rw [spread_comm] at h
  exact Multiset.Nodup.of_map _ (Multiset.nodup_of_le (Multiset.le_bind F hx) h)

theorem spread_range (n m : ℕ) (s : ℤ) (B : ℕ → ℤ) :
    spread ((Multiset.range m).map B) (offs [(n, s)]) = (Multiset.range n ×ˢ Multiset.range m).map fun x : ℕ × ℕ => (x.1 : ℤ) * s + B x.2 := by
  rw [offs1_eq, spread, Multiset.bind_map]
  simp only [SProd.sprod, Multiset.product, Multiset.map_bind, Multiset.map_map, Function.comp_def]

theorem spread_inj {n m : ℕ} {s : ℤ} {B : ℕ → ℤ} (h : (spread ((Multiset.range m).map B) (offs [(n, s)])).Nodup) :
    ∀ j < n, ∀ t < m, ∀ j' < n, ∀ t' < m, (j : ℤ) * s + B t = (j' : ℤ) * s + B t' → j = j' ∧ t = t' := by
  rw [spread_range] at h
  intro j hj t ht j' hj' t' ht' e
  have := Multiset.inj_on_of_nodup_map h (j, t) (Multiset.mem_product.2 ⟨Multiset.mem_range.2 hj, Multiset.mem_range.2 ht⟩)
    (j', t') (Multiset.mem_product.2 ⟨Multiset.mem_range.2 hj', Multiset.mem_range.2 ht'⟩) e
  exact ⟨congrArg Prod.fst this, congrArg Prod.snd this⟩

theorem mem_pairs1 {d : Dim} {x : ℤ × ℤ} : x ∈ pairs (some [d]) ↔ ∃ j < d.n, x = ((j : ℤ) * d.is, (j : ℤ) * d.os) := by
  rw [mem_pairs_cons]
  constructor
  · rintro ⟨j, hj, q, hq, rfl⟩
    obtain rfl : q = 0 := by simpa [pairs, offs] using hq
    exact ⟨j, hj, by simp⟩
  · rintro ⟨j, hj, rfl⟩
    exact ⟨j, hj, 0, by simp [pairs, offs], by simp⟩

/-- distinct outputs of a vector of rows -/
def OInj (h : Half) (d : Dim) : Prop :=
  ∀ j < d.n, ∀ t < h.nb, ∀ j' < d.n, ∀ t' < h.nb, (j : ℤ) * d.os + h.B t = (j' : ℤ) * d.os + h.B t' → j = j' ∧ t = t'
/-- distinct inputs of a vector of rows -/
def IInj (h : Half) (d : Dim) : Prop :=
  ∀ j < d.n, ∀ t < h.na, ∀ j' < d.n, ∀ t' < h.na, (j : ℤ) * d.is + h.A t = (j' : ℤ) * d.is + h.A t' → j = j' ∧ t = t'

/-- A vector of rows: what has to be shown. -/
theorem HOK_rows {h : Half} {d : Dim} {inpl nd : Bool} {f : Ptr → Ptr → State → State}
    (hf : ∀ (I O : Ptr) (st : State), OInj h d → (nd = false ∨ inpl = true → IInj h d) → I.blk < st.next → O.blk < st.next →
      (inpl = true → I = O ∧ ∀ j < d.n, (j : ℤ) * d.is = (j : ℤ) * d.os) →
      (inpl = false → ∀ j < d.n, ∀ i < h.na, ∀ j' < d.n, ∀ t < h.nb, I + ((j : ℤ) * d.is + h.A i) ≠ O + ((j' : ℤ) * d.os + h.B t)) →
      st.next ≤ (f I O st).next ∧
      (∀ q : Ptr, q.blk < st.next → (∀ j < d.n, ∀ t < h.nb, q ≠ O + ((j : ℤ) * d.os + h.B t)) →
        (nd = false ∨ inpl = true → ∀ j < d.n, ∀ i < h.na, q ≠ I + ((j : ℤ) * d.is + h.A i)) → (f I O st).mem q = st.mem q) ∧
      ∀ j < d.n, ∀ t < h.nb, (f I O st).mem (O + ((j : ℤ) * d.os + h.B t)) =
        h.P t (∑ i ∈ Finset.range h.na, h.c t i * ((st.mem (I + ((j : ℤ) * d.is + h.A i)) : ℝ) : ℂ))) :
    HOK h [] (some [d]) inpl nd f := by
  intro wf I O st hc
  have hT : append (some (([] : List (Dim × Unit)).map Prod.fst)) (some [d]) = some [d] := rfl
  rw [hT] at hc
  have ho := spread_inj (n := d.n) (s := d.os) wf.out
  have hi : nd = false ∨ inpl = true → IInj h d := fun hh => spread_inj (n := d.n) (s := d.is) (wf.inp hh)
  obtain ⟨h1, h2, h3⟩ := hf I O st ho hi hc.blkI hc.blkO
    (fun hh => ⟨hc.same hh, fun j hj => wf.eq hh ((j : ℤ) * d.is, (j : ℤ) * d.os) (mem_pairs1.2 ⟨j, hj, rfl⟩)⟩)
    (fun hh j hj i hi j' hj' t ht => hc.disj hh _ (mem_hIns.2 ⟨_, mem_pairs1.2 ⟨j, hj, rfl⟩, i, hi, rfl⟩) _
      (mem_hOuts.2 ⟨_, mem_pairs1.2 ⟨j', hj', rfl⟩, t, ht, rfl⟩))
  refine ⟨⟨h1, fun q hq hw => h2 q hq ?_ ?_⟩, ?_⟩
  · rintro j hj t ht rfl
    exact hw (Or.inl ⟨_, mem_hOuts.2 ⟨_, mem_pairs1.2 ⟨j, hj, rfl⟩, t, ht, rfl⟩, rfl⟩)
  · rintro hh j hj i hi rfl
    exact hw (Or.inr ⟨hh, _, mem_hIns.2 ⟨_, mem_pairs1.2 ⟨j, hj, rfl⟩, i, hi, rfl⟩, rfl⟩)
  · rintro dk ⟨hd1, _⟩ ab hab t ht
    obtain rfl := List.map_eq_nil_iff.1 hd1
    obtain ⟨j, hj, rfl⟩ := mem_pairs1.1 hab
    have := h3 j hj t ht
    simpa [gOut, gSum] using this

variable [CLib]

omit [CLib] in
theorem rdft2Solver_sound {mk : Rdft2P → Flags → Mk (Option Plan)}
    (h : ∀ p fl, Kosher (.rdft2 p) → (mk p fl).Good fl fun r => ∀ pl, r = some pl → FFTW.Sound fl.nd (.rdft2 p) pl) :
    (Rdft2S.rdft2Solver mk).Sound := by
  intro p fl hk
  cases p with
  | dft p => intro pl hpl; simp at hpl
  | rdft p => intro pl hpl; simp at hpl
  | rdft2 p => exact h p fl hk
  | rdft2s p => intro pl hpl; simp at hpl
  | unsolvable => intro pl hpl; simp at hpl

omit [CLib] in
theorem orShifted_sound {s : Solver} {mk : Rdft2P → Flags → Mk (Option Plan)} (hs : s.Sound)
    (h : ∀ p fl, KosherS p → (mk p fl).Good fl fun r => ∀ pl, r = some pl → FFTW.Sound fl.nd (.rdft2s p) pl) : (Rdft2S.orShifted s mk).Sound := by
  intro p fl hk
  cases p with
  | dft p => exact hs _ fl hk
  | rdft p => exact hs _ fl hk
  | rdft2 p => exact hs _ fl hk
  | rdft2s p => exact h p fl hk
  | unsolvable => exact hs _ fl hk

omit [CLib] in
/-- one row of length 1 -/
theorem shiftK_one (fwd : Bool) : shiftK fwd 1 0 0 = 1 := by
  cases fwd <;> simp [shiftK, shiftIx, rK, r2hcK, hc2rK]

omit [CLib] in
/-- the arrays' blocks -/
theorem kosher_rdft2_blk {p : Rdft2P} (hk : Kosher (.rdft2 p)) : p.r1.blk = p.r0.blk ∧ p.ci.blk = p.cr.blk := hk.1

omit [CLib] in
/-- the parts of `Kosher2` -/
theorem kosher_rdft2 {p : Rdft2P} (hk : Kosher (.rdft2 p)) :
    (p.r0 = p.cr → (∀ d ∈ p.sz.dropLast, d.is = d.os) ∧ ∀ l, p.vecsz = some l → ∀ d ∈ l, d.is = d.os) ∧
    (p.r0 ≠ p.cr → HApart (half2 p.kind (lastDim p.sz) (p.r1 - p.r0) (p.ci - p.cr)) (append (some p.sz.dropLast) p.vecsz)
      (in2 p.kind p.r0 p.cr) (out2 p.kind p.r0 p.cr)) ∧
    NonNeg p.sz ∧ Pos p.sz ∧ ∀ l, p.vecsz = some l → NonNeg l ∧ Pos l := by
  obtain ⟨_, h1, h2, h3, h4, h5⟩ := hk
  rw [half_eq, I_eq, O_eq] at h2
  have key : ∀ d ∈ p.sz, d ∈ p.sz.dropLast ∨ d = lastDim p.sz := by
    intro d hd
    rcases List.eq_nil_or_concat p.sz with h | ⟨l, e, h⟩
    · rw [h] at hd; simp at hd
    · rw [h] at hd ⊢
      simp only [List.concat_eq_append, List.mem_append, List.mem_singleton] at hd
      simpa [lastDim] using hd
  refine ⟨h1, h2, fun d hd => ?_, fun d hd => ?_, fun l hl => ⟨fun d hd => ⟨(h5 l hl d hd).1, (h5 l hl d hd).2.1⟩, fun d hd => ?_⟩⟩
  · rcases key d hd with h | h
    · exact ⟨(h3 d h).1, (h3 d h).2.1⟩
    · rw [h]; exact ⟨h4.1, h4.2.1⟩
  · rcases key d hd with h | h
    · have := (h3 d h).2.2; omega
    · rw [h]; exact h4.2.2
  · have := (h5 l hl d hd).2.2; omega

omit [CLib] in
/-- one row of length 1, backward: the real part -/
theorem c2r_one (ρ rs δ cs : ℤ) (m : ℕ → ℝ) :
    (c2rHalf 1 ρ rs δ cs).P 0 (∑ i ∈ Finset.range (c2rHalf 1 ρ rs δ cs).na, (c2rHalf 1 ρ rs δ cs).c 0 i * ((m i : ℝ) : ℂ)) = m 0 := by
  simp [c2rHalf, Finset.sum_range_succ, mult]

omit [CLib] in
/-- one row of length 1, forward: the number, and 0 -/
theorem r2c_one (ρ rs δ cs : ℤ) (m : ℕ → ℝ) (t : ℕ) (ht : t < 2) :
    (r2cHalf 1 ρ rs δ cs).P t (∑ i ∈ Finset.range (r2cHalf 1 ρ rs δ cs).na, (r2cHalf 1 ρ rs δ cs).c t i * ((m i : ℝ) : ℂ)) =
      if t = 0 then m 0 else 0 := by
  simp only [r2cHalf, Finset.sum_range_one]
  have : t = 0 ∨ t = 1 := by omega
  rcases this with rfl | rfl <;> simp

omit [CLib] in
theorem pairs_eq_of_strides {l : List Dim} (h : ∀ d ∈ l, d.is = d.os) {p : ℤ × ℤ} (hp : p ∈ pairs (some l)) : p.1 = p.2 :=
  pairs_eq_of_inplace (by simpa [inplaceStrides] using h) hp

omit [CLib] in
theorem lastDim_nil {sz : List Dim} (h : sz.length = 0) : lastDim sz = ⟨1, 0, 0⟩ := by
  rw [List.length_eq_zero_iff.1 h]; rfl

omit [CLib] in
theorem zig_zero (a s : ℤ) : zig a s 0 = 0 := by simp [zig]
omit [CLib] in
theorem zig_one (a s : ℤ) : zig a s 1 = a := by simp [zig]

theorem nop2_sound : Rdft2S.nop2.Sound := by
  refine orShifted_sound (rdft2Solver_sound ?_) ?_
  rotate_left
  · intro p fl hk
    split
    rotate_left
    · exact good_nada
    rename_i h
    apply good_ret
    obtain ⟨_, _, hv, _, _, _⟩ := hk
    rcases h with h | ⟨h2, _⟩
    · rw [hv] at h; cases h
    · intro _ P st _
      refine ⟨Frame.refl _ _, fun t ht => ?_⟩
      rw [lastDim_nil h2] at ht ⊢
      obtain rfl : t = 0 := by simp only at ht; omega
      simp [shiftK_one]
  intro p fl hk
  obtain ⟨he, -⟩ := kosher_rdft2 hk
  split
  rotate_left
  · exact good_nada
  rename_i h
  apply good_ret
  rcases h with h | ⟨h1, h2, h3, h4, h5⟩
  · simp only [FFTW.Sound]
    rw [run_eq, show run2 p.kind (p.r1 - p.r0) (p.ci - p.cr) (fun _ _ _ _ st => st) = fun _ _ st => st from by
      funext I O st; unfold run2; cases p.kind <;> rfl]
    rw [h]; exact HOK_empty rfl _ _
  · refine soundRdft2 h3 ?_
    obtain ⟨v, hv⟩ := Option.isSome_iff_exists.1 h3
    have hkd : p.kind = .HC2R := by cases hh : p.kind <;> simp_all
    rw [hkd, List.length_eq_zero_iff.1 h2, hv, decide_eq_true h4]
    intro wf I O st hc
    obtain rfl := hc.same rfl
    refine ⟨Frame.refl _ _, ?_⟩
    rintro dk ⟨hd1, _⟩ ab hab t ht
    obtain rfl := List.map_eq_nil_iff.1 hd1
    have ht0 : t = 0 := by
      have : t < 1 := ht
      omega
    subst ht0
    have hab' : ab.1 = ab.2 := pairs_eq_of_strides ((he h4).2 v hv) hab
    simp only [gSum, gOut, List.map_nil, List.sum_nil]
    have := c2r_one (p.r1 - p.r0) 0 (p.ci - p.cr) 0 (fun i => st.mem (I + (0 + ab.1 + zig (p.ci - p.cr) 0 i)))
    refine Eq.trans ?_ this.symm
    show st.mem (I + (0 + ab.2 + zig (p.r1 - p.r0) 0 0)) = _
    simp only [zig_zero, hab']

omit [CLib] in
theorem rank0_vec {nd : Bool} {v : List Dim} {r0 cr : Ptr} {δ ρ : ℤ} {c : Ptr → Ptr → State → State} (he : r0 = cr → ∀ d ∈ v, d.is = d.os)
    (hG : GOK rK [] (some v) 0 0 (decide (cr = r0)) nd c) :
    HOK (half2 .HC2R ⟨1, 0, 0⟩ ρ δ) [] (some v) (decide (r0 = cr)) nd c := by
  set h := half2 .HC2R ⟨1, 0, 0⟩ ρ δ with hh
  have hT : append (some (([] : List (Dim × Unit)).map Prod.fst)) (some v) = some v := rfl
  have hL : locT ℝ 0 0 ([] : List (Dim × RKind)) (some v) = some (⟨1, 0, 0⟩ :: v) := rfl
  have pL : pairs (some (⟨1, 0, 0⟩ :: v)) = pairs (some v) := pairs_cons_one rfl v
  have iL : ins (some ((⟨1, 0, 0⟩ : Dim) :: v)) = ins (some v) := by rw [ins_eq, ins_eq, pL]
  have oL : outs (some ((⟨1, 0, 0⟩ : Dim) :: v)) = outs (some v) := by rw [outs_eq, outs_eq, pL]
  have hI : ∀ a ∈ ins (some v), a ∈ hIns h (some v) := by
    intro a ha
    obtain ⟨b, hb⟩ := mem_ins.1 ha
    exact mem_hIns.2 ⟨_, hb, 0, by show 0 < 2; norm_num, by show a = a + zig _ _ 0; rw [zig_zero, add_zero]⟩
  have hO : ∀ a ∈ outs (some v), a ∈ hOuts h (some v) := by
    intro a ha
    obtain ⟨b, hb⟩ := mem_outs.1 ha
    exact mem_hOuts.2 ⟨_, hb, 0, by show 0 < 1; norm_num, by show a = a + zig _ _ 0; rw [zig_zero, add_zero]⟩
  intro wf I O st hc
  rw [hT] at hc ⊢
  have hdec : decide (cr = r0) = decide (r0 = cr) := by rw [Bool.eq_iff_iff, decide_eq_true_eq, decide_eq_true_eq, eq_comm]
  obtain ⟨h1, h2⟩ := hG ⟨by rw [hL, oL]; exact nodup_of_spread (Multiset.mem_map_of_mem _ (Multiset.mem_range.2 (by show 0 < 1; norm_num))) wf.out,
    fun hn => by rw [hL, iL]; exact nodup_of_spread (Multiset.mem_map_of_mem _ (Multiset.mem_range.2 (by show 0 < 2; norm_num))) (wf.inp (Or.inl hn)),
    fun hi => by
      rw [hL, iL, oL]; exact ins_eq_outs_of_inplace (he (of_decide_eq_true hi).symm),
    fun _ => rfl⟩ I O st ⟨hc.blkI, hc.blkO, by rw [hdec]; exact hc.same, fun hn a ha b hb => by
      rw [hL, iL] at ha; rw [hL, oL] at hb
      exact hc.disj (by rw [← hdec]; exact hn) a (hI a ha) b (hO b hb)⟩
  refine ⟨h1.mono ?_, ?_⟩
  · rintro q _ (⟨b, hb, rfl⟩ | ⟨hn, b, hb, rfl⟩)
    · exact Or.inl ⟨b, hO b (by rw [hL, oL] at hb; exact hb), rfl⟩
    · exact Or.inr ⟨Or.inl hn, b, hI b (by rw [hL, iL] at hb; exact hb), rfl⟩
  · rintro dk ⟨hd1, _⟩ ab hab t ht
    obtain rfl := List.map_eq_nil_iff.1 hd1
    have ht0 : t = 0 := by
      have : t < 1 := ht
      omega
    subst ht0
    have := h2 [] ⟨rfl, by simp⟩ ab hab
    simp only [gSum, gOut, List.map_nil, List.sum_nil, val_r] at this ⊢
    have h3 := c2r_one ρ 0 δ 0 (fun i => st.mem (I + (0 + ab.1 + zig δ 0 i)))
    refine Eq.trans ?_ h3.symm
    show (c I O st).mem (O + (0 + ab.2 + zig ρ 0 0)) = _
    simp only [zig_zero]
    simpa using this

/-! ### rank0-rdft2, forward -/

/-- the first `k` rows have been stored -/
structure Zeroed (vl : ℕ) (X : ℕ → ℝ) (ovs : ℤ) (cr ci : Ptr) (st : State) (k : ℕ) (s : State) : Prop where
  next : s.next = st.next
  out : ∀ q : Ptr, (∀ j < k, q ≠ cr + (j : ℤ) * ovs ∧ q ≠ ci + (j : ℤ) * ovs) → s.mem q = st.mem q
  re : ∀ j < k, s.mem (cr + (j : ℤ) * ovs) = X j
  im : ∀ j < k, s.mem (ci + (j : ℤ) * ovs) = 0

omit [CLib] in
theorem Zeroed.step {vl : ℕ} {X : ℕ → ℝ} {ovs : ℤ} {cr ci : Ptr} {st : State}
    (h1 : ∀ j < vl, ∀ j' < vl, cr + (j : ℤ) * ovs = cr + (j' : ℤ) * ovs → j = j')
    (h2 : ∀ j < vl, ∀ j' < vl, ci + (j : ℤ) * ovs = ci + (j' : ℤ) * ovs → j = j')
    (h3 : ∀ j < vl, ∀ j' < vl, cr + (j : ℤ) * ovs ≠ ci + (j' : ℤ) * ovs)
    {k : ℕ} {s : State} (hk : k < vl) (z : Zeroed vl X ovs cr ci st k s) :
    Zeroed vl X ovs cr ci st (k + 1) ((s.set (cr + (k : ℤ) * ovs) (X k)).set (ci + (k : ℤ) * ovs) 0) := by
  refine ⟨by simp [z.next], fun q hq => ?_, fun j hj => ?_, fun j hj => ?_⟩
  · rw [State.set_mem_ne _ (hq k (by omega)).2, State.set_mem_ne _ (hq k (by omega)).1]
    exact z.out q fun j hj => hq j (by omega)
  · rw [State.set_mem_ne _ (h3 j (by omega) k hk)]
    by_cases e : j = k
    · subst e; rw [State.set_mem_same]
    · rw [State.set_mem_ne _ (fun h => e (h1 j (by omega) k hk h))]
      exact z.re j (by omega)
  · by_cases e : j = k
    · subst e; rw [State.set_mem_same]
    · rw [State.set_mem_ne _ (fun h => e (h2 j (by omega) k hk h)), State.set_mem_ne _ (fun h => h3 k hk j (by omega) h.symm)]
      exact z.im j (by omega)

omit [CLib] in
theorem rank0R2hc_ok {vl : ℕ} {ivs ovs : ℤ} {r0 cr ci : Ptr} {st : State}
    (h1 : ∀ j < vl, ∀ j' < vl, cr + (j : ℤ) * ovs = cr + (j' : ℤ) * ovs → j = j')
    (h2 : ∀ j < vl, ∀ j' < vl, ci + (j : ℤ) * ovs = ci + (j' : ℤ) * ovs → j = j')
    (h3 : ∀ j < vl, ∀ j' < vl, cr + (j : ℤ) * ovs ≠ ci + (j' : ℤ) * ovs)
    (h4 : ∀ j < vl, ∀ j' < vl, r0 + (j : ℤ) * ivs ≠ cr + (j' : ℤ) * ovs ∧ r0 + (j : ℤ) * ivs ≠ ci + (j' : ℤ) * ovs) :
    Zeroed vl (fun j => st.mem (r0 + (j : ℤ) * ivs)) ovs cr ci st vl (Rdft2S.rank0R2hc vl ivs ovs r0 cr ci st) := by
  have read : ∀ {k : ℕ} {s : State}, Zeroed vl (fun j => st.mem (r0 + (j : ℤ) * ivs)) ovs cr ci st k s → k ≤ vl → ∀ j < vl,
      s.mem (r0 + (j : ℤ) * ivs) = st.mem (r0 + (j : ℤ) * ivs) := by
    intro k s z hk j hj
    exact z.out _ fun j' hj' => h4 j hj j' (by omega)
  unfold Rdft2S.rank0R2hc
  dsimp only
  generalize hst : forN (vl / 4) _ _ = s1
  have z1 : Zeroed vl (fun j => st.mem (r0 + (j : ℤ) * ivs)) ovs cr ci st (4 * (vl / 4)) s1 := by
    rw [← hst]
    refine forN_inv (P := fun i s => Zeroed vl (fun j => st.mem (r0 + (j : ℤ) * ivs)) ovs cr ci st (4 * i) s) ?_ ?_
    · exact ⟨rfl, fun _ _ => rfl, by simp, by simp⟩
    · intro i hi s z
      have hb : 4 * i + 3 < vl := by omega
      have e := ((((z.step h1 h2 h3 (by omega)).step h1 h2 h3 (by omega)).step h1 h2 h3 (by omega)).step h1 h2 h3 (by omega))
      have r := read z (by omega)
      unfold Rdft2S.rank0Quad
      dsimp only
      have a : ∀ (x : Ptr) (c : ℕ) (v : ℤ), x + ((4 * i : ℕ) : ℤ) * v + (c : ℤ) * v = x + ((4 * i + c : ℕ) : ℤ) * v := by
        intro x c v; rw [Ptr.add_add]; congr 1; push_cast; ring
      have a1 : ∀ (x : Ptr) (v : ℤ), x + ((4 * i : ℕ) : ℤ) * v + v = x + ((4 * i + 1 : ℕ) : ℤ) * v := by
        intro x v; have := a x 1 v; simpa using this
      have a2 : ∀ (x : Ptr) (v : ℤ), x + ((4 * i : ℕ) : ℤ) * v + 2 * v = x + ((4 * i + 2 : ℕ) : ℤ) * v := fun x v => a x 2 v
      have a3 : ∀ (x : Ptr) (v : ℤ), x + ((4 * i : ℕ) : ℤ) * v + 3 * v = x + ((4 * i + 3 : ℕ) : ℤ) * v := fun x v => a x 3 v
      rw [a1, a2, a3, a1, a2, a3, a1, a2, a3, r (4 * i) (by omega), r (4 * i + 1) (by omega), r (4 * i + 2) (by omega), r (4 * i + 3) (by omega)]
      exact e
  have hv : 4 * (vl / 4) + vl % 4 = vl := by omega
  have := forN_inv (n := vl % 4) (P := fun i s => Zeroed vl (fun j => st.mem (r0 + (j : ℤ) * ivs)) ovs cr ci st (4 * (vl / 4) + i) s)
    (f := fun k st =>
      (st.set (cr + ((vl / 4 * 4 + k : ℕ) : ℤ) * ovs) (st.mem (r0 + ((vl / 4 * 4 + k : ℕ) : ℤ) * ivs))).set (ci + ((vl / 4 * 4 + k : ℕ) : ℤ) * ovs) 0) (st := s1)
    z1 (fun i hi s z => by
      have e := z.step h1 h2 h3 (by omega)
      rw [Nat.mul_comm (vl / 4) 4]
      rw [read z (by omega) _ (by omega)]
      exact e)
  rw [hv] at this
  exact this

omit [CLib] in
theorem rank0R2hcInplace_ok {vl : ℕ} {ovs : ℤ} {ci : Ptr} {st : State}
    (h2 : ∀ j < vl, ∀ j' < vl, ci + (j : ℤ) * ovs = ci + (j' : ℤ) * ovs → j = j') :
    (Rdft2S.rank0R2hcInplace vl ovs ci st).next = st.next ∧
    (∀ q : Ptr, (∀ j < vl, q ≠ ci + (j : ℤ) * ovs) → (Rdft2S.rank0R2hcInplace vl ovs ci st).mem q = st.mem q) ∧
    ∀ j < vl, (Rdft2S.rank0R2hcInplace vl ovs ci st).mem (ci + (j : ℤ) * ovs) = 0 := by
  set Q : ℕ → State → Prop := fun k s => s.next = st.next ∧ (∀ q : Ptr, (∀ j < k, q ≠ ci + (j : ℤ) * ovs) → s.mem q = st.mem q) ∧
    ∀ j < k, s.mem (ci + (j : ℤ) * ovs) = 0 with hQ
  have step : ∀ k < vl, ∀ s, Q k s → Q (k + 1) (s.set (ci + (k : ℤ) * ovs) 0) := by
    rintro k hk s ⟨z1, z2, z3⟩
    refine ⟨by simp [z1], fun q hq => ?_, fun j hj => ?_⟩
    · rw [State.set_mem_ne _ (hq k (by omega))]; exact z2 q fun j hj => hq j (by omega)
    · by_cases e : j = k
      · subst e; rw [State.set_mem_same]
      · rw [State.set_mem_ne _ (fun h => e (h2 j (by omega) k hk h))]; exact z3 j (by omega)
  have fin : Q vl (Rdft2S.rank0R2hcInplace vl ovs ci st) := by
    unfold Rdft2S.rank0R2hcInplace
    dsimp only
    generalize hst : forN (vl / 4) _ _ = s1
    have z1 : Q (4 * (vl / 4)) s1 := by
      rw [← hst]
      refine forN_inv (P := fun i s => Q (4 * i) s) ⟨rfl, fun _ _ => rfl, by simp⟩ ?_
      intro i hi s z
      exact step (4 * i + 3) (by omega) _ (step (4 * i + 2) (by omega) _ (step (4 * i + 1) (by omega) _ (step (4 * i) (by omega) _ z)))
    have hv : 4 * (vl / 4) + vl % 4 = vl := by omega
    have := forN_inv (n := vl % 4) (P := fun i s => Q (4 * (vl / 4) + i) s)
      (f := fun k st => st.set (ci + ((vl / 4 * 4 + k : ℕ) : ℤ) * ovs) 0) (st := s1)
      z1 (fun i hi s z => by
        rw [Nat.mul_comm (vl / 4) 4]
        exact step _ (by omega) _ z)
    rw [hv] at this
    exact this
  exact fin

theorem rank0_2_sound : Rdft2S.rank0.Sound := by
  apply rdft2Solver_sound
  intro p fl hk
  obtain ⟨he, hap, hn, hp, hvv⟩ := kosher_rdft2 hk
  split
  rotate_left
  · exact good_nada
  rename_i hsz
  have hsz' := List.length_eq_zero_iff.1 hsz
  have hld := lastDim_nil hsz
  split
  · rename_i hkd
    rw [hkd, hld, hsz'] at hap
    apply good_need
    · refine kosher_mkproblemRdft posK_nil (fun hne => ?_) (by rintro _ _ ⟨e, he, _⟩; simp at he)
      have := hap (fun h => hne h.symm)
      intro a ha b hb
      cases hv : p.vecsz with
      | none => rw [hv] at ha; simp [append, ins] at ha
      | some v =>
        rw [hv] at ha hb this
        obtain ⟨b', hb'⟩ := mem_ins.1 ha
        obtain ⟨a', ha'⟩ := mem_outs.1 hb
        refine this a (mem_hIns.2 ⟨_, hb', 0, by show 0 < 2; norm_num, by show a = a + zig _ _ 0; rw [zig_zero, add_zero]⟩) b
          (mem_hOuts.2 ⟨_, ha', 0, by show 0 < 1; norm_num, by show b = b + zig _ _ 0; rw [zig_zero, add_zero]⟩)
    intro c hc
    rw [modify_default] at hc
    apply good_ret
    cases hv : p.vecsz with
    | none =>
      simp only [FFTW.Sound]
      rw [hv, Option.isSome_none, Bool.and_false, run_eq, hkd]
      rw [hv] at hc
      have hG := sound_mkproblemRdft_empty (sz' := []) (vec' := none) rfl rfl hc false
      intro wf I O st hcc
      obtain ⟨h1, -⟩ := hG ⟨by simp [locT_none, outs], by simp [locT_none, ins], by simp, by simp⟩ I O st
        ⟨hcc.blkI, hcc.blkO, by simp, fun _ a ha => by simp [locT_none, ins] at ha⟩
      refine ⟨h1.mono ?_, ?_⟩
      · rintro q _ (⟨b, hb, _⟩ | ⟨_, b, hb, _⟩)
        · simp [locT_none, outs] at hb
        · simp [locT_none, ins] at hb
      · intro dk _ ab hab; simp [pairs] at hab
    | some v =>
      refine soundRdft2 (by simp [hv]) ?_
      rw [hkd, hld, hsz', hv]
      rw [hv] at hc
      obtain ⟨hG, -⟩ := sound_mkproblemRdft posK_nil hc
      exact rank0_vec (fun h => (he h).2 v hv) hG
  · rename_i hkd
    rw [hkd, hld, hsz'] at hap
    split
    rotate_left
    · exact good_nada
    rename_i v hv
    split
    rotate_left
    · exact good_nada
    rename_i vd htk
    have hzig : ∀ s : ℤ, zig (p.ci - p.cr) s 0 = 0 ∧ zig (p.ci - p.cr) s 1 = p.ci - p.cr := fun s => ⟨zig_zero _ _, zig_one _ _⟩
    split
    · rename_i hin
      split
      rotate_left
      · exact good_nada
      apply good_ret
      refine soundRdft2 (by simp [hv]) ?_
      rw [hkd, hld, hsz', hv, decide_eq_true hin]
      refine HOK.vec_congr ?_ (tornk1_pairs htk)
      refine HOK_rows ?_
      intro I O st ho _ _ _ hsame _
      obtain ⟨rfl, hse⟩ := hsame rfl
      obtain ⟨k1, k2, k3⟩ := rank0R2hcInplace_ok (vl := vd.n) (ovs := vd.os) (ci := I + (p.ci - p.cr : ℤ)) (st := st) (by
        intro j hj j' hj' e
        rw [Ptr.add_add, Ptr.add_add] at e
        have e' := Ptr.add_inj.1 e
        refine (ho j hj 1 (by show 1 < 2; norm_num) j' hj' 1 (by show 1 < 2; norm_num) ?_).1
        show (j : ℤ) * vd.os + zig (p.ci - p.cr) 0 1 = (j' : ℤ) * vd.os + zig (p.ci - p.cr) 0 1
        rw [(hzig 0).2]; linarith)
      refine ⟨le_of_eq k1.symm, fun q hq hqo _ => k2 q fun j hj e => hqo j hj 1 (by show 1 < 2; norm_num) ?_, fun j hj t ht => ?_⟩
      · rw [e, Ptr.add_add]; congr 1
        show _ = (j : ℤ) * vd.os + zig (p.ci - p.cr) 0 1
        rw [(hzig 0).2]; ring
      · have ht2 : t < 2 := ht
        refine Eq.trans ?_ (r2c_one (p.r1 - p.r0) 0 (p.ci - p.cr) 0 (fun i => st.mem (I + ((j : ℤ) * vd.is + zig (p.r1 - p.r0) 0 i))) t ht2).symm
        show (Rdft2S.rank0R2hcInplace vd.n vd.os (I + (p.ci - p.cr : ℤ)) st).mem (I + ((j : ℤ) * vd.os + zig (p.ci - p.cr) 0 t)) = _
        rcases (lt_two ht2) with rfl | rfl
        · rw [if_pos rfl, zig_zero, zig_zero, hse j hj]
          apply k2
          intro j' hj' e
          rw [Ptr.add_add] at e
          have e' := Ptr.add_inj.1 e
          have := (ho j hj 0 (by show 0 < 2; norm_num) j' hj' 1 (by show 1 < 2; norm_num) (by
            show (j : ℤ) * vd.os + zig (p.ci - p.cr) 0 0 = (j' : ℤ) * vd.os + zig (p.ci - p.cr) 0 1
            rw [(hzig 0).2, (hzig 0).1]; linarith)).2
          exact absurd this (by norm_num)
        · rw [if_neg (by norm_num), zig_one, add_comm, ← Ptr.add_add]
          exact k3 j hj
    · rename_i hin
      apply good_ret
      refine soundRdft2 (by simp [hv]) ?_
      rw [hkd, hld, hsz', hv, decide_eq_false hin]
      refine HOK.vec_congr ?_ (tornk1_pairs htk)
      refine HOK_rows ?_
      intro I O st ho _ _ _ _ hdis
      have hdis' := hdis rfl
      have B0 : (half2 .R2HC ⟨1, 0, 0⟩ (p.r1 - p.r0) (p.ci - p.cr)).B 0 = 0 := zig_zero _ _
      have B1 : (half2 .R2HC ⟨1, 0, 0⟩ (p.r1 - p.r0) (p.ci - p.cr)).B 1 = p.ci - p.cr := zig_one _ _
      have A0 : (half2 .R2HC ⟨1, 0, 0⟩ (p.r1 - p.r0) (p.ci - p.cr)).A 0 = 0 := zig_zero _ _
      have n2 : (half2 .R2HC ⟨1, 0, 0⟩ (p.r1 - p.r0) (p.ci - p.cr)).nb = 2 := rfl
      have n1 : (half2 .R2HC ⟨1, 0, 0⟩ (p.r1 - p.r0) (p.ci - p.cr)).na = 1 := rfl
      have eci : ∀ j : ℕ, O + (p.ci - p.cr : ℤ) + (j : ℤ) * vd.os = O + ((j : ℤ) * vd.os + (p.ci - p.cr : ℤ)) := by
        intro j; rw [Ptr.add_add, add_comm]
      have z := rank0R2hc_ok (vl := vd.n) (ivs := vd.is) (ovs := vd.os) (r0 := I) (cr := O) (ci := O + (p.ci - p.cr : ℤ)) (st := st)
        (by
          intro j hj j' hj' e
          have e' := Ptr.add_inj.1 e
          exact (ho j hj 0 (by rw [n2]; norm_num) j' hj' 0 (by rw [n2]; norm_num) (by rw [B0]; linarith)).1)
        (by
          intro j hj j' hj' e
          rw [eci, eci] at e
          have e' := Ptr.add_inj.1 e
          exact (ho j hj 1 (by rw [n2]; norm_num) j' hj' 1 (by rw [n2]; norm_num) (by rw [B1]; exact e')).1)
        (by
          intro j hj j' hj' e
          rw [eci] at e
          have e' := Ptr.add_inj.1 e
          have := (ho j hj 0 (by rw [n2]; norm_num) j' hj' 1 (by rw [n2]; norm_num) (by rw [B1, B0, add_zero]; exact e')).2
          exact absurd this (by norm_num))
        (by
          intro j hj j' hj'
          have e0 := hdis' j hj 0 (by rw [n1]; norm_num) j' hj' 0 (by rw [n2]; norm_num)
          have e1 := hdis' j hj 0 (by rw [n1]; norm_num) j' hj' 1 (by rw [n2]; norm_num)
          rw [A0, B0, add_zero, add_zero] at e0
          rw [A0, B1, add_zero] at e1
          exact ⟨e0, by rw [eci]; exact e1⟩)
      refine ⟨le_of_eq z.next.symm, fun q hq hqo _ => z.out q fun j hj => ?_, fun j hj t ht => ?_⟩
      · have e0 := hqo j hj 0 (by rw [n2]; norm_num)
        have e1 := hqo j hj 1 (by rw [n2]; norm_num)
        rw [B0, add_zero] at e0
        rw [B1] at e1
        exact ⟨e0, by rw [eci]; exact e1⟩
      · have ht2 : t < 2 := ht
        refine Eq.trans ?_ (r2c_one (p.r1 - p.r0) 0 (p.ci - p.cr) 0 (fun i => st.mem (I + ((j : ℤ) * vd.is + zig (p.r1 - p.r0) 0 i))) t ht2).symm
        rcases (lt_two ht2) with rfl | rfl
        · rw [if_pos rfl, zig_zero, B0, add_zero, add_zero]
          exact z.re j hj
        · rw [if_neg (by norm_num), B1, ← eci]
          exact z.im j hj

theorem vrankGeq1_2_sound (vecloopDim : Int) (buddies : List Int) (taste : Taste) : (Rdft2S.vrankGeq1 vecloopDim buddies taste).Sound := by
  apply rdft2Solver_sound
  intro p fl hk
  obtain ⟨he, hap, hn, hp, hvv⟩ := kosher_rdft2 hk
  split
  · exact good_nada
  rename_i v hv
  obtain ⟨hvn, hvp⟩ := hvv v hv
  split
  rotate_left
  · exact good_nada
  split
  · exact good_nada
  rename_i vdim hpick
  split
  rotate_left
  · exact good_nada
  split
  · exact good_nada
  rename_i d hd
  have hperm := eraseIdx_perm hd
  apply good_need
  · refine kosher_mkproblemRdft2 (kosher_rdft2_blk hk) hn ?_ hp ?_ ?_
    · rw [nonNegV_some]
      exact hvn.sub fun e he => List.mem_of_mem_eraseIdx he
    · intro h
      refine ⟨(he h).1, fun l hl e hem => (he h).2 v hv e ?_⟩
      obtain rfl := Option.some.inj hl
      exact List.mem_of_mem_eraseIdx hem
    · intro hne
      have h1 := hap hne
      rw [hv] at h1
      have key : ∀ x ∈ pairs (append (some p.sz.dropLast) (some (v.eraseIdx vdim))), x ∈ pairs (append (some p.sz.dropLast) (some v)) := by
        intro x hx
        rw [pairs_app] at hx ⊢
        obtain ⟨y, hy, hx⟩ := Multiset.mem_bind.1 hx
        obtain ⟨z, hz, rfl⟩ := Multiset.mem_map.1 hx
        refine Multiset.mem_bind.2 ⟨y, hy, Multiset.mem_map.2 ⟨z, ?_, rfl⟩⟩
        rw [pairs_perm hperm]
        exact mem_pairs_of_pos (hvp d (List.mem_of_getElem? hd)) hz
      intro a ha b hb
      obtain ⟨ab, hab, i, hi, rfl⟩ := mem_hIns.1 ha
      obtain ⟨cd, hcd, t, ht, rfl⟩ := mem_hOuts.1 hb
      exact h1 _ (mem_hIns.2 ⟨ab, key _ hab, i, hi, rfl⟩) _ (mem_hOuts.2 ⟨cd, key _ hcd, t, ht, rfl⟩)
  intro c hc
  rw [modify_default] at hc
  have hH := sound_mkproblemRdft2 hc
  apply good_ret
  refine soundRdft2 (by simp [hv]) ?_
  rw [hv]
  apply HOK.vec_congr _ (pairs_perm hperm)
  refine (HOK_loop (d := d) hH (fun h => (he (of_decide_eq_true h)).2 v hv d (List.mem_of_getElem? hd))).congr ?_
  intro I O st
  unfold run2 Rdft2S.rstride Rdft2S.cstride
  cases p.kind
  all_goals
    dsimp only
    congr 1
    funext i st
    simp only [Ptr.add_add]
    rw [add_comm ((i : ℤ) * d.is), add_comm ((i : ℤ) * d.os)]

end FFTW
