import Verif.Proofs.CodeletsR
import Verif.Proofs.Rdft2Rdft
import Verif.Proofs.Rdft2Rank

/-!
# rdft/direct2.c
-/

namespace FFTW
open Tensor Spec DftS RdftS Finset Api

namespace Spec

theorem spread_mono {F F' : Multiset ℤ} (h : F ≤ F') (R : Multiset ℤ) : spread F R ≤ spread F' R := by
  unfold spread
  induction R using Multiset.induction_on with
  | empty => simp
  | cons a R ih => rw [Multiset.cons_bind, Multiset.cons_bind]; exact add_le_add (Multiset.map_le_map h) ih

/-- rows writing some of the places of other rows -/
theorem HWF.sub {h h' : Half} {szc : List Dim} {vec : Tensor} {inpl nd : Bool} (wf : HWF h szc vec inpl nd) (hna : h'.na = h.na) (hA : h'.A = h.A)
    (σ : ℕ → ℕ) (hσ : ∀ p < h'.nb, σ p < h.nb) (hi : ∀ p < h'.nb, ∀ p' < h'.nb, σ p = σ p' → p = p') (hB : ∀ p < h'.nb, h'.B p = h.B (σ p)) :
    HWF h' szc vec inpl nd := by
  have hle : (Multiset.range h'.nb).map h'.B ≤ (Multiset.range h.nb).map h.B := by
    have e : (Multiset.range h'.nb).map h'.B = ((Multiset.range h'.nb).map σ).map h.B := by
      rw [Multiset.map_map]
      exact Multiset.map_congr rfl fun p hp => hB p (Multiset.mem_range.1 hp)
    rw [e]
    apply Multiset.map_le_map
    rw [Multiset.le_iff_subset ((Multiset.nodup_range _).map_on fun p hp p' hp' => hi p (Multiset.mem_range.1 hp) p' (Multiset.mem_range.1 hp'))]
    intro x hx
    obtain ⟨p, hp, rfl⟩ := Multiset.mem_map.1 hx
    exact Multiset.mem_range.2 (hσ p (Multiset.mem_range.1 hp))
  refine ⟨Multiset.nodup_of_le (spread_mono hle _) wf.out, fun hh => ?_, wf.eq, fun hh => Multiset.nodup_of_le (spread_mono ?_ _) (wf.all hh)⟩
  · have := wf.inp hh
    unfold hIns at this ⊢
    rw [hna, hA]; exact this
  · rw [hna, hA, Multiset.le_iff_subset (Multiset.nodup_dedup _)]
    intro x hx
    rw [Multiset.mem_dedup] at hx ⊢
    exact Multiset.subset_of_le (add_le_add le_rfl hle) hx

theorem HWritable.sub {h h' : Half} {T : Tensor} {inpl nd : Bool} {I O q : Ptr} (w : HWritable h' T inpl nd I O q) (hna : h'.na = h.na) (hA : h'.A = h.A)
    (σ : ℕ → ℕ) (hσ : ∀ p < h'.nb, σ p < h.nb) (hB : ∀ p < h'.nb, h'.B p = h.B (σ p)) : HWritable h T inpl nd I O q := by
  rcases w with ⟨b, hb, rfl⟩ | ⟨hn, a, ha, rfl⟩
  · obtain ⟨ab, hab, t, ht, rfl⟩ := mem_hOuts.1 hb
    exact Or.inl ⟨_, mem_hOuts.2 ⟨ab, hab, σ t, hσ t ht, rfl⟩, by rw [hB t ht]⟩
  · obtain ⟨ab, hab, t, ht, rfl⟩ := mem_hIns.1 ha
    exact Or.inr ⟨hn, _, mem_hIns.2 ⟨ab, hab, t, by rw [← hna]; exact ht, rfl⟩, by rw [hA]⟩

theorem HCompat.sub {h h' : Half} {T : Tensor} {inpl : Bool} {I O : Ptr} {st : State} (c : HCompat h T inpl I O st) (hna : h'.na = h.na) (hA : h'.A = h.A)
    (σ : ℕ → ℕ) (hσ : ∀ p < h'.nb, σ p < h.nb) (hB : ∀ p < h'.nb, h'.B p = h.B (σ p)) : HCompat h' T inpl I O st := by
  refine ⟨c.blkI, c.blkO, c.same, fun hi a ha b hb => ?_⟩
  obtain ⟨ab, hab, i, hi', rfl⟩ := mem_hIns.1 ha
  obtain ⟨cd, hcd, t, ht, rfl⟩ := mem_hOuts.1 hb
  exact c.disj hi _ (mem_hIns.2 ⟨ab, hab, i, by rw [← hna]; exact hi', by rw [hA]⟩) _ (mem_hOuts.2 ⟨cd, hcd, σ t, hσ t ht, by rw [hB t ht]⟩)

end Spec

/-- where element `p` of a halfcomplex sequence is in `n/2+1` complex numbers -/
def hcIdx (n p : ℕ) : ℕ := if 2 * p ≤ n then 2 * p else 2 * (n - p) + 1

theorem hcIdx_lt {n p : ℕ} (hp : p < n) : hcIdx n p < 2 * (n / 2 + 1) := by unfold hcIdx; split <;> omega
theorem hcIdx_inj {n p p' : ℕ} (hp : p < n) (hp' : p' < n) (h : hcIdx n p = hcIdx n p') : p = p' := by unfold hcIdx at h; split at h <;> split at h <;> omega

theorem hcAt_zig (n : ℕ) (P : Ptr) (δ s : ℤ) (p : ℕ) : hcAt n 0 P (P + δ) s s p = P + zig δ s (hcIdx n p) := by
  unfold hcAt hcIdx
  simp only [add_zero, Nat.sub_zero]
  split
  · rw [zig_even]
  · rw [zig_odd, Ptr.add_add]

theorem realAt_zig (P : Ptr) (ρ s : ℤ) (j : ℕ) : realAt P (P + ρ) s j = P + zig ρ s j := by
  unfold realAt zig
  rcases Nat.mod_two_eq_zero_or_one j with h0 | h0
  · rw [if_pos h0, h0]; simp
  · rw [if_neg (by omega), h0, Ptr.add_add]; simp

theorem chv_hcIdx (n : ℕ) (x : ℕ → ℝ) (k : ℕ) : chv n x k = x (hcIdx n k) := by
  unfold chv hcIdx; split <;> rfl

/-- the rows a forward codelet computes: complex numbers without the imaginary parts that are 0 -/
noncomputable def hcHalf (n : ℕ) (ρ rs δ cs : ℤ) : Half where
  na := n
  nb := n
  A := zig ρ rs
  B := fun p => zig δ cs (hcIdx n p)
  c := fun t i => ((rK .R2HC00 n i t : ℝ) : ℂ)
  P := fun _ => Complex.re
  K := dftK

variable [CLib]

theorem codelet_r2c_row {c : KR2c} (hc : c.Sound) (hk : c.kind = .R2HC00) (ρ rs δ cs : ℤ) (inpl : Bool) :
    HOK (hcHalf c.n ρ rs δ cs) [] (some []) inpl true (fun I O => c.k I (I + ρ) O (O + δ) rs cs cs 1 0 0) := by
  refine HOK.vec_congr ?_ (Genfft.pairs_one 0 0).symm
  apply HOK_rows
  intro I O st ho _ bI bO _ _
  have h1 := hc.one I (I + ρ) O (O + δ) rs cs cs st
  simp only [hk, r2hcKindp, if_true, freqShift] at h1
  have h2 := h1 fun k hk k' hk' e => by
    rw [hcAt_zig, hcAt_zig] at e
    exact (ho 0 (by simp) k hk 0 (by simp) k' hk' (by simpa [hcHalf] using (ptr_add_right_inj O).1 e)).2
  refine ⟨h2.next.ge, fun q _ hq _ => h2.other q fun k hk => ?_, fun j hj t ht => ?_⟩
  · rw [hcAt_zig]
    have := hq 0 (by simp) k hk
    simpa [hcHalf] using this
  · obtain rfl : j = 0 := by have : j < 1 := hj; omega
    have := h2.val t ht
    rw [hcAt_zig] at this
    simp only [hcHalf, Nat.cast_zero, zero_mul, zero_add, this, Complex.re_sum]
    refine sum_congr rfl fun i _ => ?_
    rw [realAt_zig, ← Complex.ofReal_mul, Complex.ofReal_re]

theorem codelet_c2r_row {c : KR2c} (hc : c.Sound) (hk : c.kind = .HC2R00) (hn : 0 < c.n) (ρ rs δ cs : ℤ) (inpl : Bool) :
    HOK (c2rHalf c.n ρ rs δ cs) [] (some []) inpl true (fun I O => c.k O (O + ρ) I (I + δ) rs cs cs 1 0 0) := by
  refine HOK.vec_congr ?_ (Genfft.pairs_one 0 0).symm
  apply HOK_rows
  intro I O st ho _ bI bO _ _
  have h1 := hc.one O (O + ρ) I (I + δ) rs cs cs st
  simp only [hk, r2hcKindp, Bool.false_eq_true, if_false, freqShift] at h1
  have h2 := h1 fun k hk k' hk' e => by
    rw [realAt_zig, realAt_zig] at e
    exact (ho 0 (by simp) k hk 0 (by simp) k' hk' (by simpa [c2rHalf] using (ptr_add_right_inj O).1 e)).2
  refine ⟨h2.next.ge, fun q _ hq _ => h2.other q fun k hk => ?_, fun j hj t ht => ?_⟩
  · rw [realAt_zig]
    have := hq 0 (by simp) k hk
    simpa [c2rHalf] using this
  · obtain rfl : j = 0 := by have : j < 1 := hj; omega
    have := h2.val t ht
    rw [realAt_zig] at this
    have e := c2r_of_hc hn (fun i => st.mem (I + zig δ cs i)) ρ rs δ cs t
    simp only [Nat.cast_zero, zero_mul, zero_add]
    show (c.k O (O + ρ) I (I + δ) rs cs cs 1 0 0 st).mem (O + zig ρ rs t) = _
    rw [this]
    refine Eq.trans ?_ e
    exact sum_congr rfl fun i _ => by rw [hcAt_zig, chv_hcIdx]

/-- the loop writing the imaginary parts of the first and of the last element of each row -/
theorem zeros_ok {vl : ℕ} {ovs l : ℤ} {ci : Ptr} (st : State) :
    (forN vl (fun i st => (st.set (ci + (i : ℤ) * ovs + l) 0).set (ci + (i : ℤ) * ovs) 0) st).next = st.next ∧
    (∀ q, (∀ i < vl, q ≠ ci + (i : ℤ) * ovs + l ∧ q ≠ ci + (i : ℤ) * ovs) →
      (forN vl (fun i st => (st.set (ci + (i : ℤ) * ovs + l) 0).set (ci + (i : ℤ) * ovs) 0) st).mem q = st.mem q) ∧
    ∀ q, (∃ i < vl, q = ci + (i : ℤ) * ovs + l ∨ q = ci + (i : ℤ) * ovs) →
      (forN vl (fun i st => (st.set (ci + (i : ℤ) * ovs + l) 0).set (ci + (i : ℤ) * ovs) 0) st).mem q = 0 := by
  have := forN_inv (P := fun n s => s.next = st.next ∧ (∀ q, (∀ i < n, q ≠ ci + ((i : ℕ) : ℤ) * ovs + l ∧ q ≠ ci + (i : ℤ) * ovs) → s.mem q = st.mem q) ∧
      ∀ q, (∃ i < n, q = ci + ((i : ℕ) : ℤ) * ovs + l ∨ q = ci + (i : ℤ) * ovs) → s.mem q = 0) (n := vl)
    (f := fun i st => (st.set (ci + (i : ℤ) * ovs + l) 0).set (ci + (i : ℤ) * ovs) 0) (st := st)
    ⟨rfl, fun _ _ => rfl, by simp⟩ (by
      rintro i hi s ⟨h1, h2, h3⟩
      refine ⟨h1, fun q hq => ?_, fun q hq => ?_⟩
      · have := hq i (by omega)
        rw [State.set_mem_ne _ this.2, State.set_mem_ne _ this.1]
        exact h2 q fun k hk => hq k (by omega)
      · by_cases e1 : q = ci + (i : ℤ) * ovs
        · rw [e1, State.set_mem_same]
        · rw [State.set_mem_ne _ e1]
          by_cases e2 : q = ci + (i : ℤ) * ovs + l
          · rw [e2, State.set_mem_same]
          · rw [State.set_mem_ne _ e2]
            obtain ⟨k, hk, hq⟩ := hq
            refine h3 q ⟨k, ?_, hq⟩
            by_contra hn
            obtain rfl : k = i := by omega
            rcases hq with h | h
            · exact e2 h
            · exact e1 h)
  exact this

theorem direct2_r2c {c : KR2c} (hc : c.Sound) (hk : c.kind = .R2HC00) (hn : 0 < c.n) (ρ rs δ cs : ℤ) (vl : ℕ) (ivs ovs : ℤ) (inpl : Bool)
    (hs : inpl = true → ivs = ovs) :
    HOK (r2cHalf c.n ρ rs δ cs) [] (some [⟨vl, ivs, ovs⟩]) inpl true (fun I O st =>
      forN vl (fun i st =>
        (st.set (O + δ + (i : ℤ) * ovs + (if c.n % 2 = 1 then 0 else ((c.n / 2 : ℕ) : ℤ) * cs)) 0).set (O + δ + (i : ℤ) * ovs) 0)
        (c.k I (I + ρ) O (O + δ) rs cs cs vl ivs ovs st)) := by
  intro wf I O st hcm
  have hT : append (some (([] : List (Dim × Unit)).map Prod.fst)) (some [(⟨vl, ivs, ovs⟩ : Dim)]) = some [⟨vl, ivs, ovs⟩] := rfl
  set h' := hcHalf c.n ρ rs δ cs with hh'
  have hσ : ∀ p < h'.nb, hcIdx c.n p < (r2cHalf c.n ρ rs δ cs).nb := fun p hp => hcIdx_lt hp
  have hB : ∀ p < h'.nb, h'.B p = (r2cHalf c.n ρ rs δ cs).B (hcIdx c.n p) := fun _ _ => rfl
  have wf' : HWF h' [] (some [⟨vl, ivs, ovs⟩]) inpl true := wf.sub rfl rfl (hcIdx c.n) hσ (fun p hp p' hp' => hcIdx_inj hp hp') hB
  have loop := HOK_loop (d := ⟨vl, ivs, ovs⟩) (codelet_r2c_row hc hk ρ rs δ cs inpl) hs
  obtain ⟨l1, l2⟩ := loop wf' I O st (hcm.sub rfl rfl (hcIdx c.n) hσ hB)
  have hrun : c.k I (I + ρ) O (O + δ) rs cs cs vl ivs ovs st =
      forN vl (fun i st => c.k (I + (i : ℤ) * ivs) (I + (i : ℤ) * ivs + ρ) (O + (i : ℤ) * ovs) (O + (i : ℤ) * ovs + δ) rs cs cs 1 0 0 st) st := by
    rw [hc.loop]
    refine forN_congr (fun i _ st => ?_) st
    simp only [hk, r2hcKindp, if_true, Ptr.add_add]
    rw [add_comm ρ, add_comm δ]
  dsimp only at l1 l2
  rw [← hrun] at l1 l2
  set s1 := c.k I (I + ρ) O (O + δ) rs cs cs vl ivs ovs st with hs1
  obtain ⟨z1, z2, z3⟩ := zeros_ok (vl := vl) (ovs := ovs) (l := if c.n % 2 = 1 then 0 else ((c.n / 2 : ℕ) : ℤ) * cs) (ci := O + δ) s1
  set l : ℤ := if c.n % 2 = 1 then 0 else ((c.n / 2 : ℕ) : ℤ) * cs with hl
  -- the zeros are the imaginary parts `0` and `n/2`, if `n` is even
  have pz : ∀ i : ℕ, O + δ + (i : ℤ) * ovs = O + ((i : ℤ) * ovs + zig δ cs 1) := fun i => by
    rw [zig_one, Ptr.add_add]; congr 1; ring
  have pl : ∀ i : ℕ, ∃ t, t < 2 * (c.n / 2 + 1) ∧ t % 2 = 1 ∧ (t / 2 = 0 ∨ 2 * (t / 2) = c.n) ∧
      O + δ + (i : ℤ) * ovs + l = O + ((i : ℤ) * ovs + zig δ cs t) := by
    intro i
    rw [hl]
    split
    · exact ⟨1, by omega, rfl, Or.inl rfl, by rw [ptr_add_zero]; exact pz i⟩
    · refine ⟨2 * (c.n / 2) + 1, by omega, by omega, Or.inr (by omega), ?_⟩
      rw [zig_odd, Ptr.add_add, Ptr.add_add]; congr 1; ring
  have hl' : ∀ i : ℕ, ∀ t, t < 2 * (c.n / 2 + 1) → t % 2 = 1 → (t / 2 = 0 ∨ 2 * (t / 2) = c.n) →
      O + ((i : ℤ) * ovs + zig δ cs t) = O + δ + (i : ℤ) * ovs + l ∨ O + ((i : ℤ) * ovs + zig δ cs t) = O + δ + (i : ℤ) * ovs := by
    intro i t ht h1 h2
    rcases h2 with h2 | h2
    · right
      obtain rfl : t = 1 := by omega
      rw [pz]
    · left
      rw [hl, if_neg (by omega), show t = 2 * (c.n / 2) + 1 by omega, zig_odd, Ptr.add_add, Ptr.add_add]; congr 1; ring
  have oinj := spread_inj (n := vl) (s := ovs) (m := 2 * (c.n / 2 + 1)) (B := zig δ cs) wf.out
  refine ⟨⟨by rw [z1]; exact l1.next, fun q hq hw => ?_⟩, ?_⟩
  · rw [z2 q, l1.mem q hq fun w => hw (w.sub rfl rfl (hcIdx c.n) hσ hB)]
    intro i hi
    constructor
    · rintro rfl
      obtain ⟨t, ht, -, -, e⟩ := pl i
      exact hw (Or.inl ⟨_, mem_hOuts.2 ⟨((i : ℤ) * ivs, (i : ℤ) * ovs), mem_pairs1.2 ⟨i, hi, rfl⟩, t, ht, rfl⟩, e⟩)
    · rintro rfl
      exact hw (Or.inl ⟨_, mem_hOuts.2 ⟨((i : ℤ) * ivs, (i : ℤ) * ovs), mem_pairs1.2 ⟨i, hi, rfl⟩, 1, by show 1 < 2 * (c.n / 2 + 1); omega, rfl⟩, pz i⟩)
  · intro dk hdk ab hab t ht
    obtain rfl : dk = [] := List.map_eq_nil_iff.1 hdk.1
    obtain ⟨j, hj, rfl⟩ := mem_pairs1.1 hab
    have ht' : t < 2 * (c.n / 2 + 1) := ht
    simp only [gOut_nil, zero_add, gSum]
    refine Eq.trans ?_ (r2c_of_hc hn (fun i => st.mem (I + ((j : ℤ) * ivs + zig ρ rs i))) ρ rs δ cs t ht)
    show (forN vl _ s1).mem (O + ((j : ℤ) * ovs + zig δ cs t)) = _
    -- not a zero
    have nz : ¬ (t % 2 = 1 ∧ (t / 2 = 0 ∨ 2 * (t / 2) = c.n)) →
        (forN vl (fun i st => (st.set (O + δ + (i : ℤ) * ovs + l) 0).set (O + δ + (i : ℤ) * ovs) 0) s1).mem (O + ((j : ℤ) * ovs + zig δ cs t)) =
        s1.mem (O + ((j : ℤ) * ovs + zig δ cs t)) := by
      intro hne
      apply z2
      intro i hi
      constructor
      · intro e
        obtain ⟨t', ht2, h1, h2, e'⟩ := pl i
        rw [e'] at e
        obtain ⟨-, rfl⟩ := oinj j hj t ht' i hi t' ht2 ((ptr_add_right_inj O).1 e)
        exact hne ⟨h1, h2⟩
      · intro e
        rw [pz] at e
        obtain ⟨-, rfl⟩ := oinj j hj t ht' i hi 1 (by omega) ((ptr_add_right_inj O).1 e)
        exact hne ⟨rfl, Or.inl rfl⟩
    have val : ∀ p < c.n, s1.mem (O + ((j : ℤ) * ovs + zig δ cs (hcIdx c.n p))) =
        ∑ i ∈ range c.n, rK .R2HC00 c.n i p * st.mem (I + ((j : ℤ) * ivs + zig ρ rs i)) := by
      intro p hp
      have := l2 [] ⟨rfl, by simp⟩ _ hab p hp
      simp only [gOut_nil, zero_add, gSum] at this
      refine this.trans ?_
      simp only [hh', hcHalf, Complex.re_sum]
      exact sum_congr rfl fun i _ => by rw [← Complex.ofReal_mul, Complex.ofReal_re]
    by_cases hz : t % 2 = 1 ∧ (t / 2 = 0 ∨ 2 * (t / 2) = c.n)
    · rw [z3 _ ⟨j, hj, hl' j t ht' hz.1 hz.2⟩, hcv, if_neg (by omega), if_pos hz.2]
    · rw [nz hz, hcv]
      by_cases h0 : t % 2 = 0
      · rw [if_pos h0, ← val (t / 2) (by omega), hcIdx, if_pos (by omega), show 2 * (t / 2) = t by omega]
      · rw [if_neg h0, if_neg (by omega), ← val (c.n - t / 2) (by omega), hcIdx, if_neg (by omega),
          show 2 * (c.n - (c.n - t / 2)) + 1 = t by omega]

omit [CLib] in
theorem shiftIx_lt {n t : ℕ} (ht : t < n) : shiftIx n t < n := by unfold shiftIx; split <;> omega
omit [CLib] in
theorem shiftIx_inj {n t t' : ℕ} (ht : t < n) (ht' : t' < n) (h : shiftIx n t = shiftIx n t') : t = t' := by
  unfold shiftIx at h; split at h <;> split at h <;> omega
omit [CLib] in
theorem shiftIx_surj {n p : ℕ} (hp : p < n) : ∃ t < n, shiftIx n t = p := by
  by_cases h : 2 * p < n
  · exact ⟨2 * p, h, by unfold shiftIx; rw [if_pos (by omega)]; omega⟩
  · exact ⟨2 * (n - 1 - p) + 1, by omega, by unfold shiftIx; rw [if_neg (by omega)]; omega⟩

omit [CLib] in
theorem sum_shiftIx (n : ℕ) (g : ℕ → ℝ) : ∑ t ∈ range n, g (shiftIx n t) = ∑ p ∈ range n, g p := by
  refine Finset.sum_bij (fun t _ => shiftIx n t) (fun t ht => mem_range.2 (shiftIx_lt (mem_range.1 ht)))
    (fun t ht t' ht' e => shiftIx_inj (mem_range.1 ht) (mem_range.1 ht') e) (fun p hp => ?_) (fun _ _ => rfl)
  obtain ⟨t, ht, e⟩ := shiftIx_surj (mem_range.1 hp)
  exact ⟨t, mem_range.2 ht, e⟩

omit [CLib] in
theorem hcAt_shift {n t : ℕ} (ht : t < n) (P : Ptr) (δ s : ℤ) : hcAt n 1 P (P + δ) s s (shiftIx n t) = P + zig δ s t := by
  unfold hcAt shiftIx
  rcases Nat.mod_two_eq_zero_or_one t with h | h
  · simp only [if_pos h]
    rw [if_pos (by omega)]
    congr 1
    simp [zig, h]
  · simp only [if_neg (show ¬ t % 2 = 0 by omega)]
    rw [if_neg (by omega), Ptr.add_add, show n - 1 - (n - 1 - t / 2) = t / 2 by omega]
    congr 1
    simp [zig, h]

/-- a codelet for a shifted kind on one row -/
theorem codelet_shift {c : KR2c} (hc : c.Sound) {kind : R2Kind} (hk : Rdft2S.toRKindS kind = c.kind) (δ s : ℤ) :
    ShiftOK (decide (kind = .R2HC)) c.n δ s fun P => c.k P (P + δ) P (P + δ) s s s 1 0 0 := by
  intro hinj P st hP
  have h1 := hc.one P (P + δ) P (P + δ) s s s st
  have hB : ∀ k < c.n, ∀ k' < c.n, hcAt c.n 1 P (P + δ) s s k = hcAt c.n 1 P (P + δ) s s k' → k = k' := by
    intro k hk k' hk' e
    obtain ⟨t, ht, rfl⟩ := shiftIx_surj hk
    obtain ⟨t', ht', rfl⟩ := shiftIx_surj hk'
    rw [hcAt_shift ht, hcAt_shift ht'] at e
    rw [hinj t ht t' ht' ((ptr_add_right_inj P).1 e)]
  have hA : ∀ k < c.n, ∀ k' < c.n, realAt P (P + δ) s k = realAt P (P + δ) s k' → k = k' := by
    intro k hk k' hk' e
    rw [realAt_zig, realAt_zig] at e
    exact hinj k hk k' hk' ((ptr_add_right_inj P).1 e)
  cases kind with
  | R2HC =>
    simp only [← hk, Rdft2S.toRKindS, r2hcKindp, if_true, freqShift] at h1
    have h2 := h1 hB
    refine ⟨⟨h2.next.ge, fun q _ hq => h2.other q fun k hk e => ?_⟩, fun t ht => ?_⟩
    · obtain ⟨t, ht, rfl⟩ := shiftIx_surj hk
      exact hq ⟨t, ht, by rw [e, hcAt_shift ht]⟩
    · have := h2.val _ (shiftIx_lt ht)
      rw [hcAt_shift ht] at this
      rw [this]
      exact sum_congr rfl fun i _ => by rw [realAt_zig]; rfl
  | HC2R =>
    simp only [← hk, Rdft2S.toRKindS, r2hcKindp, Bool.false_eq_true, if_false, freqShift] at h1
    have h2 := h1 hA
    refine ⟨⟨h2.next.ge, fun q _ hq => h2.other q fun k hk e => hq ⟨k, hk, by rw [e, realAt_zig]⟩⟩, fun t ht => ?_⟩
    have := h2.val t ht
    rw [realAt_zig] at this
    rw [this, ← sum_shiftIx]
    exact sum_congr rfl fun i hi => by rw [hcAt_shift (mem_range.1 hi)]; rfl

theorem direct2_sound (c : KR2c) (hc : c.Sound) : (Rdft2S.direct2 c).Sound := by
  refine orShifted_sound (rdft2Solver_sound ?_) ?_
  rotate_left
  · intro p fl hk
    obtain ⟨h0, h1, hv0, _, hs, _⟩ := hk
    split
    rotate_left
    · exact good_nada
    rename_i d v hsz hv
    split
    rotate_left
    · exact good_nada
    rename_i vd htor
    split
    rotate_left
    · exact good_nada
    rename_i happ
    obtain ⟨e1, e2, -⟩ := happ
    have hld : lastDim p.sz = d := by rw [hsz]; rfl
    rw [hv0] at hv
    obtain rfl := Option.some.inj hv
    obtain rfl := Option.some.inj htor
    apply good_ret
    simp only [FFTW.Sound]
    rw [hld] at hs ⊢
    have er : Rdft2S.rstride p.kind d = d.is := by cases p.kind <;> simp [Rdft2S.rstride, hs]
    have ec : Rdft2S.cstride p.kind d = d.is := by cases p.kind <;> simp [Rdft2S.cstride, hs]
    rw [er, ec, e1]
    exact codelet_shift hc e2 (p.r1 - p.r0) d.is
  intro p fl hk
  obtain ⟨he, hap, hn, hp, hvv⟩ := kosher_rdft2 hk
  split
  rotate_left
  · exact good_nada
  rename_i d v hsz hv
  split
  rotate_left
  · exact good_nada
  rename_i vd htor
  split
  rotate_left
  · exact good_nada
  rename_i happ
  obtain ⟨e1, e2, -⟩ := happ
  have hd0 : 0 < c.n := by rw [← e1]; exact hp d (by rw [hsz]; simp)
  have hs : decide (p.r0 = p.cr) = true → vd.is = vd.os := by
    intro h
    match v, htor, hv with
    | [], ht, _ => obtain rfl := Option.some.inj ht; rfl
    | [e], ht, hv => obtain rfl := Option.some.inj ht; exact (he (of_decide_eq_true h)).2 _ hv e (by simp)
  have hld : lastDim p.sz = d := by rw [hsz]; rfl
  dsimp only
  apply good_ret
  refine soundRdft2 (by simp [hv]) ?_
  rw [hld, show p.sz.dropLast = [] by rw [hsz]; rfl, hv]
  refine HOK.weaken (nd := true) (fun _ => rfl) ?_
  refine HOK.vec_congr ?_ (tornk1_pairs htor)
  cases hkd : p.kind with
  | R2HC =>
    rw [hkd] at e2
    have key := direct2_r2c hc e2.symm hd0 (p.r1 - p.r0) d.is (p.ci - p.cr) d.os vd.n vd.is vd.os (decide (p.r0 = p.cr)) hs
    rw [← e1] at key
    exact key
  | HC2R =>
    rw [hkd] at e2
    have key := HOK_loop (d := vd) (codelet_c2r_row hc e2.symm hd0 (p.r1 - p.r0) d.os (p.ci - p.cr) d.is (decide (p.r0 = p.cr))) hs
    rw [← e1] at key
    refine key.congr fun I O st => ?_
    show c.k _ _ _ _ _ _ _ _ _ _ st = _
    rw [hc.loop]
    refine forN_congr (fun i _ st => ?_) st
    simp only [← e2, Rdft2S.toRKind, r2hcKindp, Bool.false_eq_true, if_false, Ptr.add_add, Rdft2S.rstride, Rdft2S.cstride]
    rw [add_comm (p.r1 - p.r0 : ℤ), add_comm (p.ci - p.cr : ℤ)]

end FFTW
