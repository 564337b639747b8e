import Verif.Proofs.DftCt
import Mathlib.Data.List.Nodup
import Mathlib.Data.List.Dedup
import Mathlib.Data.List.ProdSigma

namespace FFTW.DftS
open Tensor Spec
variable [CLib]

omit [CLib] in
/-- the table: `W[2*(im-1) + 2*(m-1)*ir ..] = (cos, sin)(2π ir im/(rm))` -/
theorem dftwW_spec {cexp : ℕ → ℤ → ℝ × ℝ} (hc : ExactCexp cexp) {r m ir im : ℕ} (hir : ir < r) (him0 : 0 < im) (him : im < m) :
    dftwW cexp r m (2 * im + 2 * (m - 1) * ir - 2) = Real.cos (2 * Real.pi * ((ir * im : ℕ) : ℝ) / ((r * m : ℕ) : ℝ)) ∧
    dftwW cexp r m (2 * im + 2 * (m - 1) * ir - 1) = Real.sin (2 * Real.pi * ((ir * im : ℕ) : ℝ) / ((r * m : ℕ) : ℝ)) := by
  have e1 : ∀ j : ℕ, ([⟨.full, 0, 0⟩] : List Twiddle.Instr).flatMap (Twiddle.emit cexp (r * m) m ((j * 1 : ℕ) : ℤ)) =
      (List.range (m - 1)).flatMap fun i0 => [(cexp (r * m) ((j * (i0 + 1) : ℕ) : ℤ)).1, (cexp (r * m) ((j * (i0 + 1) : ℕ) : ℤ)).2] := by
    intro i
    simp only [List.flatMap_cons, List.flatMap_nil, List.append_nil, Twiddle.emit]
    congr 1
    funext i0
    push_cast
    simp
  have hlen : ∀ i : ℕ, (([⟨.full, 0, 0⟩] : List Twiddle.Instr).flatMap (Twiddle.emit cexp (r * m) m ((i * 1 : ℕ) : ℤ))).length = 2 * (m - 1) := by
    intro i
    rw [e1, List.length_flatMap]
    simp; omega
  have hlt : ir * im < r * m := by
    calc ir * im ≤ ir * m := Nat.mul_le_mul_left _ him.le
      _ < r * m := Nat.mul_lt_mul_of_pos_right hir (by omega)
  have hval : cexp (r * m) ((ir * im : ℕ) : ℤ) = (Real.cos (2 * Real.pi * ((ir * im : ℕ) : ℝ) / ((r * m : ℕ) : ℝ)), Real.sin (2 * Real.pi * ((ir * im : ℕ) : ℝ) / ((r * m : ℕ) : ℝ))) := by
    rw [hc (r * m) _ (by omega) (by omega) (by exact_mod_cast hlt)]
    norm_cast
  have hm : (r + 1 - 1) / 1 = r := by simp
  have key : ∀ j, j < 2 → dftwW cexp r m (2 * (im - 1) + 2 * (m - 1) * ir + j) = [(cexp (r * m) ((ir * im : ℕ) : ℤ)).1, (cexp (r * m) ((ir * im : ℕ) : ℤ)).2].getD j 0 := by
    intro j hj
    unfold dftwW Twiddle.compute fullTw
    dsimp only
    rw [hm, show 2 * (im - 1) + 2 * (m - 1) * ir + j = ir * (2 * (m - 1)) + ((im - 1) * 2 + j) by ring,
      getD_flatMap_range _ (2 * (m - 1)) hlen _ _ _ _ hir (by omega), e1,
      getD_flatMap_range (fun i0 => [(cexp (r * m) ((ir * (i0 + 1) : ℕ) : ℤ)).1, (cexp (r * m) ((ir * (i0 + 1) : ℕ) : ℤ)).2]) 2 (fun _ => rfl) 0 _ (im - 1) j (by omega) hj]
    rw [show im - 1 + 1 = im by omega]
  constructor
  · rw [show 2 * im + 2 * (m - 1) * ir - 2 = 2 * (im - 1) + 2 * (m - 1) * ir + 0 by omega, key 0 (by omega), hval]; rfl
  · rw [show 2 * im + 2 * (m - 1) * ir - 1 = 2 * (im - 1) + 2 * (m - 1) * ir + 1 by omega, key 1 (by omega), hval]; rfl

/-- offsets of a twiddle step whose input and output strides agree -/
def TwS (t : TwP) (o : ℤ) : Prop := ∃ j l i : ℕ, j < t.r ∧ t.mb ≤ l ∧ l < t.mb + t.mc ∧ i < t.v ∧ o = (j : ℤ) * t.ors + (l : ℤ) * t.ms + (i : ℤ) * t.ovs

omit [CLib] in
theorem tw_inj {t : TwP} {δ : ℤ} (h : (outs (t.locT δ)).Nodup) {c j l i c' j' l' i' : ℕ} (hc : c < 2) (hj : j < t.r) (hl : t.mb ≤ l) (hl2 : l < t.mb + t.mc) (hi : i < t.v)
    (hc' : c' < 2) (hj' : j' < t.r) (hl' : t.mb ≤ l') (hl2' : l' < t.mb + t.mc) (hi' : i' < t.v)
    (e : (c : ℤ) * δ + ((j : ℤ) * t.ors + (l : ℤ) * t.ms + (i : ℤ) * t.ovs) = (c' : ℤ) * δ + ((j' : ℤ) * t.ors + (l' : ℤ) * t.ms + (i' : ℤ) * t.ovs)) :
    c = c' ∧ j = j' ∧ l = l' ∧ i = i' := by
  rw [TwP.locT, outs_four] at h
  simp only at h
  obtain ⟨a, rfl⟩ := Nat.exists_eq_add_of_le hl
  obtain ⟨a', rfl⟩ := Nat.exists_eq_add_of_le hl'
  obtain ⟨h1, h2, h3, h4⟩ := offs4_inj h hc hj (show a < t.mc by omega) hi hc' hj' (show a' < t.mc by omega) hi' (by push_cast at e; linarith)
  exact ⟨h1, h2, by omega, h4⟩

omit [CLib] in
theorem twS_inj {t : TwP} {δ : ℤ} (h : (outs (t.locT δ)).Nodup) : SInj δ (TwS t) := by
  rintro c c' o o' hc hc' ⟨j, l, i, hj, hl, hl2, hi, rfl⟩ ⟨j', l', i', hj', hl', hl2', hi', rfl⟩ e
  obtain ⟨h1, h2, h3, h4⟩ := tw_inj h hc hj hl hl2 hi hc' hj' hl' hl2' hi' e
  exact ⟨h1, by rw [h2, h3, h4]⟩

omit [CLib] in
theorem twS_mem {t : TwP} {δ o : ℤ} (h : TwS t o) {c : ℕ} (hc : c < 2) : ∃ b ∈ outs (t.locT δ), (c : ℤ) * δ + o = (t.mb : ℤ) * t.ms + b := by
  obtain ⟨j, l, i, hj, hl, hl2, hi, rfl⟩ := h
  obtain ⟨a, rfl⟩ := Nat.exists_eq_add_of_le hl
  refine ⟨(c : ℤ) * δ + ((j : ℤ) * t.ors + (a : ℤ) * t.ms + (i : ℤ) * t.ovs), ?_, by push_cast; ring⟩
  rw [TwP.locT, outs_four]
  exact mem_offs4.2 ⟨c, j, a, i, hc, hj, by simp only; omega, hi, rfl⟩

/-- multiplication by the twiddle factors -/
theorem bytwiddle_spec {cexp : ℕ → ℤ → ℝ × ℝ} (hc : ExactCexp cexp) {t : TwP} {δ : ℤ} (hrs : t.irs = t.ors) (hvs : t.ivs = t.ovs) (hmb : t.mb + t.mc ≤ t.m)
    (hn : (outs (t.locT δ)).Nodup) (P : Ptr) (st : State) :
    let st' := bytwiddle (dftwW cexp t.r t.m) t P (P + δ) st
    Frame st st' (fun q => ∃ b ∈ outs (t.locT δ), q = P + ((t.mb : ℤ) * t.ms + b)) ∧ st'.next = st.next ∧
    ∀ j l i : ℕ, j < t.r → t.mb ≤ l → l < t.mb + t.mc → i < t.v →
      (val st'.mem P δ (j * t.ors + l * t.ms + i * t.ovs) : ℂ) = ω (t.r * t.m) ^ (j * l) * val st.mem P δ (j * t.ors + l * t.ms + i * t.ovs) := by
  intro st'
  set mb := if t.mb = 0 then 1 else t.mb with hmbd
  have hmb1 : 1 ≤ mb ∧ t.mb ≤ mb ∧ (mb = t.mb ∨ t.mb = 0 ∧ mb = 1) := by rw [hmbd]; split <;> omega
  let F : ℕ × ℕ × ℕ → ℤ × (ℂ → ℂ) := fun x =>
    (((x.2.1 + 1 : ℕ) : ℤ) * t.ors + ((mb + x.2.2 : ℕ) : ℤ) * t.ms + (x.1 : ℤ) * t.ovs, fun z => ω (t.r * t.m) ^ ((x.2.1 + 1) * (mb + x.2.2)) * z)
  set c := t.mb + t.mc - mb with hcdef
  have hst : st' = upds P δ (((List.range t.v) ×ˢ (List.range (t.r - 1)) ×ˢ (List.range c)).map F) st := by
    have e : (((List.range t.v) ×ˢ (List.range (t.r - 1)) ×ˢ (List.range c)).map F) =
        (List.range t.v).flatMap fun iv => (List.range (t.r - 1)).flatMap fun ir => (List.range c).flatMap fun im => [F (iv, ir, im)] := by
      simp only [SProd.sprod, List.product, List.map_flatMap, List.map_map]
      simp only [Function.comp_def, ← List.flatMap_pure_eq_map]
      rfl
    rw [e, ← forN_upds]
    show bytwiddle _ _ _ _ _ = _
    unfold bytwiddle
    dsimp only
    rw [← hmbd]
    apply forN_congr
    intro iv hiv st1
    rw [← forN_upds]
    apply forN_congr
    intro ir hir st2
    rw [← forN_upds]
    apply forN_congr
    intro im him st3
    show _ = upd1 P δ (F (iv, ir, im)) st3
    have him' : mb + im < t.m := by omega
    obtain ⟨w1, w2⟩ := dftwW_spec hc (show ir + 1 < t.r by omega) (show 0 < mb + im by omega) him'
    unfold bytw1 upd1 put
    dsimp only [F]
    rw [w1, w2, ω_pow_cos, val_c]
    have p1 : P + (iv : ℤ) * t.ivs + (t.ms * ((mb + im : ℕ) : ℤ) + t.irs * ((ir + 1 : ℕ) : ℤ)) = P + (((ir + 1 : ℕ) : ℤ) * t.ors + ((mb + im : ℕ) : ℤ) * t.ms + (iv : ℤ) * t.ovs) := by
      rw [Ptr.add_add, hrs, hvs]; congr 1; ring
    have p2 : P + δ + (iv : ℤ) * t.ivs + (t.ms * ((mb + im : ℕ) : ℤ) + t.irs * ((ir + 1 : ℕ) : ℤ)) = P + (δ + (((ir + 1 : ℕ) : ℤ) * t.ors + ((mb + im : ℕ) : ℤ) * t.ms + (iv : ℤ) * t.ovs)) := by
      rw [Ptr.add_add, Ptr.add_add, hrs, hvs]; congr 1; ring
    rw [p1, p2]
    congr 2
    · simp [-Complex.ofReal_cos, -Complex.ofReal_sin]; ring
    · simp [-Complex.ofReal_cos, -Complex.ofReal_sin]; ring
  have hmem : ∀ x ∈ (List.range t.v) ×ˢ (List.range (t.r - 1)) ×ˢ (List.range c), x.1 < t.v ∧ x.2.1 + 1 < t.r ∧ mb + x.2.2 < t.mb + t.mc := by
    rintro ⟨iv, ir, im⟩ hx
    simp only [List.mem_product, List.mem_range] at hx
    exact ⟨hx.1, by simp only; omega, by simp only; omega⟩
  have hS : ∀ e ∈ (((List.range t.v) ×ˢ (List.range (t.r - 1)) ×ˢ (List.range c)).map F), TwS t e.1 := by
    intro e he
    obtain ⟨x, hx, rfl⟩ := List.mem_map.1 he
    obtain ⟨h1, h2, h3⟩ := hmem x hx
    exact ⟨x.2.1 + 1, mb + x.2.2, x.1, h2, by omega, h3, h1, rfl⟩
  have hnd : ((((List.range t.v) ×ˢ (List.range (t.r - 1)) ×ˢ (List.range c)).map F).map Prod.fst).Nodup := by
    rw [List.map_map]
    apply List.Nodup.map_on
    · intro x hx y hy e
      obtain ⟨h1, h2, h3⟩ := hmem x hx
      obtain ⟨h1', h2', h3'⟩ := hmem y hy
      have := tw_inj hn (c := 0) (c' := 0) (by omega) h2 (by omega) h3 h1 (by omega) h2' (by omega) h3' h1' (by
        simp only [Function.comp, F] at e; rw [e])
      obtain ⟨x1, x2, x3⟩ := x
      obtain ⟨y1, y2, y3⟩ := y
      simp only at this
      simp only [Prod.mk.injEq]; omega
    · exact List.nodup_range.product (List.nodup_range.product List.nodup_range)
  obtain ⟨u1, u0, u2, u3⟩ := upds_spec (P := P) (twS_inj hn) (W := fun q => ∃ b ∈ outs (t.locT δ), q = P + ((t.mb : ℤ) * t.ms + b))
    (fun o ho c hc => by obtain ⟨b, hb, e⟩ := twS_mem (δ := δ) ho hc; exact ⟨b, hb, by rw [e]⟩) _ hS hnd st
  rw [← hst] at u1 u0 u2 u3
  refine ⟨u1, u0, ?_⟩
  intro j l i hj hl hl2 hi
  by_cases h0 : j = 0 ∨ l = 0
  · have e1 : j * l = 0 := by rcases h0 with rfl | rfl <;> simp
    rw [e1, pow_zero, one_mul]
    apply u2 _ ⟨j, l, i, hj, hl, hl2, hi, rfl⟩
    intro hx
    rw [List.map_map] at hx
    obtain ⟨x, hx, e⟩ := List.mem_map.1 hx
    obtain ⟨h1, h2, h3⟩ := hmem x hx
    have := tw_inj hn (c := 0) (c' := 0) (by omega) h2 (by omega) h3 h1 (by omega) hj hl hl2 hi (by
        simp only [Function.comp, F] at e; rw [e])
    omega
  · have hx := u3 (F (i, j - 1, l - mb)) (List.mem_map_of_mem (by
      simp only [List.mem_product, List.mem_range]; omega))
    simp only [F] at hx
    rw [show j - 1 + 1 = j by omega, show mb + (l - mb) = l by omega] at hx
    exact hx

/-- the sub-transforms of a twiddle step -/
theorem tw_cld {t : TwP} {δ : ℤ} {nd : Bool} {f : Ptr → Ptr → State → State} (hrs : t.irs = t.ors) (hvs : t.ivs = t.ovs)
    (h : GOK dftK [(⟨t.r, t.irs, t.irs⟩, ())] (some [⟨t.mc, t.ms, t.ms⟩, ⟨t.v, t.ivs, t.ivs⟩]) δ δ true nd f)
    (hn : (outs (t.locT δ)).Nodup) (P : Ptr) (st : State) (hP : P.blk < st.next) :
    let st' := f (P + t.ms * (t.mb : ℤ)) (P + t.ms * (t.mb : ℤ)) st
    Frame st st' (fun q => ∃ b ∈ outs (t.locT δ), q = P + ((t.mb : ℤ) * t.ms + b)) ∧
    ∀ k l i : ℕ, k < t.r → t.mb ≤ l → l < t.mb + t.mc → i < t.v →
      (val st'.mem P δ (k * t.ors + l * t.ms + i * t.ovs) : ℂ) =
        ∑ j ∈ Finset.range t.r, ω t.r ^ (j * k) * (val st.mem P δ (j * t.ors + l * t.ms + i * t.ovs) : ℂ) := by
  intro st'
  have eo : outs (locT ℂ δ δ [((⟨t.r, t.irs, t.irs⟩ : Dim), ())] (some [⟨t.mc, t.ms, t.ms⟩, ⟨t.v, t.ivs, t.ivs⟩])) = outs (t.locT δ) := by
    rw [TwP.locT, outs_four, hrs, hvs]; rfl
  have ei : ins (locT ℂ δ δ [((⟨t.r, t.irs, t.irs⟩ : Dim), ())] (some [⟨t.mc, t.ms, t.ms⟩, ⟨t.v, t.ivs, t.ivs⟩])) = outs (t.locT δ) := by
    rw [TwP.locT, outs_four, hrs, hvs]; rfl
  obtain ⟨h1, h2⟩ := h ⟨eo ▸ hn, fun _ => ei ▸ hn, fun _ => by rw [eo, ei], fun _ => rfl⟩ (P + t.ms * (t.mb : ℤ)) (P + t.ms * (t.mb : ℤ)) st
    ⟨hP, hP, fun _ => rfl, fun h => by simp at h⟩
  refine ⟨h1.mono ?_, ?_⟩
  · rintro q - (⟨b, hb, rfl⟩ | ⟨_, b, hb, rfl⟩)
    · exact ⟨b, eo ▸ hb, by rw [Ptr.add_add, mul_comm]⟩
    · exact ⟨b, ei ▸ hb, by rw [Ptr.add_add, mul_comm]⟩
  · intro k l i hk hl hl2 hi
    obtain ⟨a, rfl⟩ := Nat.exists_eq_add_of_le hl
    have := h2 [((⟨t.r, t.irs, t.irs⟩, ()), k)] ⟨rfl, by simpa using hk⟩ ((a : ℤ) * t.ms + i * t.ivs, (a : ℤ) * t.ms + i * t.ivs) (by
      refine mem_pairs_cons.2 ⟨a, by simp only; omega, (i * t.ivs, i * t.ivs), mem_pairs_cons.2 ⟨i, hi, 0, by simp [pairs, offs], by simp⟩, by simp⟩)
    rw [gOut_cons, gOut_nil, val_shift] at this
    simp only [gSum, dftK] at this
    rw [show (k : ℤ) * t.ors + ((t.mb + a : ℕ) : ℤ) * t.ms + i * t.ovs = t.ms * (t.mb : ℤ) + ((k : ℤ) * t.irs + 0 + ((a : ℤ) * t.ms + i * t.ivs)) by
      rw [hrs, hvs]; push_cast; ring]
    refine this.trans ?_
    apply Finset.sum_congr rfl
    intro j _
    rw [val_shift]
    congr 2
    rw [hrs, hvs]; push_cast; ring

theorem dftwGeneric_sound {cexp : ℕ → ℤ → ℝ × ℝ} (hc : ExactCexp cexp) (dec : Dec) (taste : TwP → Flags → Bool) :
    Inferior.Sound (decide (dec = .dit)) (dftwGeneric cexp dec taste) := by
  intro t rio iio fl hr0 _ h1 h2 h3 h4 h5 hmb _
  unfold dftwGeneric
  split
  rotate_left
  · intro f hf; simp at hf
  rename_i happ
  obtain ⟨hrs, hvs, _⟩ := happ
  dsimp only
  apply Mk.Good.need
  · apply kosher_mkproblemDft
    · intro e he; simp only [List.mem_singleton] at he; subst he; exact ⟨h1, h1⟩
    · rw [nonNegV_some]
      intro e he
      simp only [List.mem_cons, List.not_mem_nil, or_false] at he
      rcases he with rfl | rfl
      · exact ⟨h3, h3⟩
      · exact ⟨h4, h4⟩
    · intro e he; simp only [List.mem_singleton] at he; subst he; exact hr0
    · intro h; exact absurd rfl h
  · intro f hf; simp at hf
  intro c hcld
  rw [modify_default] at hcld
  obtain ⟨hG, _⟩ := sound_mkproblemDft hcld
  have ed : (iio + t.ms * (t.mb : ℤ)) - (rio + t.ms * (t.mb : ℤ)) = iio - rio := by
    show iio.off + _ - (rio.off + _) = iio.off - rio.off; ring
  rw [ed, show decide (rio + t.ms * (t.mb : ℤ) = rio + t.ms * (t.mb : ℤ)) = true by simp] at hG
  set δ := iio - rio with hδ
  have eP : ∀ P : Ptr, P + δ + t.ms * (t.mb : ℤ) = P + t.ms * (t.mb : ℤ) + δ := by
    intro P; rw [Ptr.add_add, Ptr.add_add, add_comm]
  intro f hf
  obtain rfl := Option.some.inj hf
  intro hn hio P st hP
  by_cases hd : dec = .dit
  · simp only [hd, if_true, decide_true, eP]
    obtain ⟨b1, b0, b2⟩ := bytwiddle_spec hc hrs hvs hmb hn P st
    obtain ⟨c1, c2⟩ := tw_cld hrs hvs hG hn P (bytwiddle (dftwW cexp t.r t.m) t P (P + δ) st) (by rw [b0]; exact hP)
    refine ⟨b1.trans c1 (fun _ _ h => h) fun _ _ h => h, ?_⟩
    intro k l i hk hl hl2 hi
    rw [c2 k l i hk hl hl2 hi, twStep, if_pos rfl]
    apply Finset.sum_congr rfl
    intro j hj
    rw [b2 j l i (Finset.mem_range.1 hj) hl hl2 hi, hrs, hvs]
  · simp only [hd, if_false, decide_false, eP]
    obtain ⟨c1, c2⟩ := tw_cld hrs hvs hG hn P st hP
    set st1 := c.dftApply (P + t.ms * (t.mb : ℤ)) (P + t.ms * (t.mb : ℤ) + δ) (P + t.ms * (t.mb : ℤ)) (P + t.ms * (t.mb : ℤ) + δ) st with hst1
    obtain ⟨b1, b0, b2⟩ := bytwiddle_spec hc hrs hvs hmb hn P st1
    refine ⟨c1.trans b1 (fun _ _ h => h) fun _ _ h => h, ?_⟩
    intro k l i hk hl hl2 hi
    rw [b2 k l i hk hl hl2 hi, c2 k l i hk hl hl2 hi, twStep, if_neg (by simp), hrs, hvs]

end FFTW.DftS
