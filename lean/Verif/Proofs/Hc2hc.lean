import Verif.Model.Hc2hc
import Verif.Proofs.HcMath
import Verif.Proofs.DftCt
import Verif.Proofs.RdftSolvers

/-! # rdft/hc2hc.c computes the transform -/

namespace FFTW
open Tensor Spec

namespace Spec

theorem hcCol_lt {m : ℕ} (p : ℕ) : hcCol m p < 0 + (m + 2) / 2 := by
  unfold hcCol; omega

theorem hc_split {r m p : ℕ} (hm : m ≠ 0) (hp : p < r * m) : p / m < r ∧ p % m < m ∧ p = p / m * m + p % m :=
  ⟨Nat.div_lt_of_lt_mul (by rw [mul_comm]; exact hp), Nat.mod_lt _ (by omega), by rw [mul_comm]; exact (Nat.div_add_mod p m).symm⟩

theorem hcStep_congr {fwd : Bool} {r m : ℕ} (hr : r ≠ 0) (hm : m ≠ 0) {u w : ℕ → ℝ} {p : ℕ} (hp : p < r * m)
    (h : ∀ q < r * m, hcCol m q = hcCol m p → u q = w q) : hcStep fwd r m u p = hcStep fwd r m w p := by
  obtain ⟨hk, hl, he⟩ := hc_split hm hp
  have hpos : ∀ j < r, ∀ l < m, j * m + l < r * m := by
    intro j hj l hl
    calc j * m + l < j * m + m := by omega
      _ = (j + 1) * m := by ring
      _ ≤ r * m := Nat.mul_le_mul_right _ hj
  generalize hkk : p / m = k at *
  generalize hll : p % m = l at *
  have hcp : hcCol m p = min l (m - l) := by rw [hcCol, hll]
  have hu : ∀ j < r, u (j * m + l) = w (j * m + l) := by
    intro j hj
    apply h _ (hpos j hj l hl)
    rw [hcCol, hc_mod j hl, hcp]
  have hu' : 0 < l → ∀ j < r, u (j * m + (m - l)) = w (j * m + (m - l)) := by
    intro h0 j hj
    apply h _ (hpos j hj _ (by omega))
    rw [hcCol, hc_mod j (show m - l < m by omega), hcp]; omega
  by_cases h0 : l = 0
  · subst h0
    simp only [add_zero] at he hu
    rw [he, hcStep_zero fwd hr hm u hk, hcStep_zero fwd hr hm w hk]
    exact Finset.sum_congr rfl fun j hj => by rw [hu j (Finset.mem_range.1 hj)]
  · by_cases h2 : 2 * l = m
    · rw [he, hcStep_mid fwd hr h2 (by omega) u hk, hcStep_mid fwd hr h2 (by omega) w hk]
      exact Finset.sum_congr rfl fun j hj => by rw [hu j (Finset.mem_range.1 hj)]
    · have key : ∀ l', 0 < l' → 2 * l' < m → (∀ j < r, u (j * m + l') = w (j * m + l')) → (∀ j < r, u (j * m + (m - l')) = w (j * m + (m - l'))) →
          hcStep fwd r m u (k * m + l') = hcStep fwd r m w (k * m + l') ∧ hcStep fwd r m u (k * m + (m - l')) = hcStep fwd r m w (k * m + (m - l')) := by
        intro l' hl0 hl2 e1 e2
        have a := hcStep_col fwd hr hl0 hl2 u hk
        have b := hcStep_col fwd hr hl0 hl2 w hk
        have c : hcColumn fwd r m l' (fun j => ⟨u (j * m + l'), u (j * m + (m - l'))⟩) k = hcColumn fwd r m l' (fun j => ⟨w (j * m + l'), w (j * m + (m - l'))⟩) k := by
          unfold hcColumn
          have e3 : ∀ t, (∑ j ∈ Finset.range r, ω (r * m) ^ (j * (t * m + l')) * (⟨u (j * m + l'), u (j * m + (m - l'))⟩ : ℂ)) =
              ∑ j ∈ Finset.range r, ω (r * m) ^ (j * (t * m + l')) * (⟨w (j * m + l'), w (j * m + (m - l'))⟩ : ℂ) := fun t =>
            Finset.sum_congr rfl fun j hj => by rw [e1 j (Finset.mem_range.1 hj), e2 j (Finset.mem_range.1 hj)]
          split
          · simp only [e3]
          · refine Finset.sum_congr rfl fun j hj => ?_
            have hj := Finset.mem_range.1 hj
            simp only [e1 j hj, e2 (r - 1 - j) (by omega)]
        rw [← a, ← b] at c
        exact ⟨congrArg Complex.re c, congrArg Complex.im c⟩
      rw [he]
      by_cases h3 : 2 * l < m
      · exact (key l (by omega) h3 hu (hu' (by omega))).1
      · have := (key (m - l) (by omega) (by omega) (hu' (by omega)) (by rw [show m - (m - l) = l by omega]; exact hu)).2
        rw [show m - (m - l) = l by omega] at this
        exact this

theorem eo_hc {r m : ℕ} {os : ℤ} {v : ℕ} {ovs : ℤ} : offs [(m, os), (r, (m : ℤ) * os), (v, ovs)] = offs [(r * m, os), (v, ovs)] := by
  have := offs_merge r m os [(v, ovs)]
  rw [nsmul_eq_mul] at this
  rw [offs_perm (List.Perm.swap _ _ _), this]

theorem ei_hc {r m : ℕ} {is : ℤ} {v : ℕ} {ivs : ℤ} : offs [(m, (r : ℤ) * is), (r, is), (v, ivs)] = offs [(r * m, is), (v, ivs)] := by
  have := offs_merge m r is [(v, ivs)]
  rw [nsmul_eq_mul] at this
  rw [this, mul_comm m r]

/-- decimation in time -/
theorem GOK_hcdit {r m : ℕ} {is os : ℤ} {v : ℕ} {ivs ovs : ℤ} {inpl nd : Bool} {f1 : Ptr → Ptr → State → State} {f2 : Ptr → State → State}
    (hr : r ≠ 0) (hm : m ≠ 0)
    (h1 : GOK rK [(⟨m, (r : ℤ) * is, os⟩, .R2HC00)] (some [⟨r, is, (m : ℤ) * os⟩, ⟨v, ivs, ovs⟩]) 0 0 inpl nd f1)
    (h2 : HcOK true ⟨r, m, os, v, ovs, 0, (m + 2) / 2⟩ f2) :
    GOK rK [(⟨r * m, is, os⟩, .R2HC00)] (some [⟨v, ivs, ovs⟩]) 0 0 inpl nd (fun I O st => f2 O (f1 I O st)) := by
  intro wf I O st hc
  have eiT : ins (locT ℝ 0 0 [((⟨r * m, is, os⟩ : Dim), RKind.R2HC00)] (some [⟨v, ivs, ovs⟩])) = offs [(r * m, is), (v, ivs)] := by rw [RdftS.ins_locT_real]; rfl
  have eoT : outs (locT ℝ 0 0 [((⟨r * m, is, os⟩ : Dim), RKind.R2HC00)] (some [⟨v, ivs, ovs⟩])) = offs [(r * m, os), (v, ovs)] := by rw [RdftS.outs_locT_real]; rfl
  have ei : ins (locT ℝ 0 0 [((⟨m, (r : ℤ) * is, os⟩ : Dim), RKind.R2HC00)] (some [⟨r, is, (m : ℤ) * os⟩, ⟨v, ivs, ovs⟩])) = offs [(r * m, is), (v, ivs)] := by
    rw [RdftS.ins_locT_real]; exact ei_hc
  have eo : outs (locT ℝ 0 0 [((⟨m, (r : ℤ) * is, os⟩ : Dim), RKind.R2HC00)] (some [⟨r, is, (m : ℤ) * os⟩, ⟨v, ivs, ovs⟩])) = offs [(r * m, os), (v, ovs)] := by
    rw [RdftS.outs_locT_real]; exact eo_hc
  have wo := wf.out
  have wi := wf.inp
  have we := wf.eq
  rw [eoT] at wo
  rw [eiT] at wi
  rw [eiT, eoT] at we
  have wf1 : WF ℝ [((⟨m, (r : ℤ) * is, os⟩ : Dim), RKind.R2HC00)] (some [⟨r, is, (m : ℤ) * os⟩, ⟨v, ivs, ovs⟩]) 0 0 inpl nd :=
    ⟨by rw [eo]; exact wo, by rw [ei]; exact wi, by rw [ei, eo]; exact we, wf.delta⟩
  obtain ⟨fr1, v1⟩ := h1 wf1 I O st ⟨hc.blkI, hc.blkO, hc.same, fun h a ha b hb => hc.disj h a (by rw [eiT]; rw [ei] at ha; exact ha) b (by rw [eoT]; rw [eo] at hb; exact hb)⟩
  obtain ⟨fr2, v2⟩ := h2 wo O (f1 I O st) (lt_of_lt_of_le hc.blkO fr1.next)
  refine ⟨fr1.trans fr2 ?_ ?_, ?_⟩
  · intro q _ hq
    unfold Writable at hq ⊢
    rw [ei, eo] at hq
    rw [eiT, eoT]
    exact hq
  · rintro q _ ⟨i, hi, p, hp, -, -, rfl⟩
    refine Or.inl ⟨_, ?_, rfl⟩
    rw [eoT]
    exact mem_offs_cons.2 ⟨p, hp, _, mem_offs_cons.2 ⟨i, hi, 0, mem_offs_nil.2 rfl, rfl⟩, by simp⟩
  · rintro dk ⟨hd1, hd2⟩ ab hab
    obtain ⟨iv, hiv, q, hq, rfl⟩ := mem_pairs_cons.1 hab
    obtain rfl : q = 0 := by simpa [pairs, offs] using hq
    cases dk with
    | nil => simp at hd1
    | cons e t =>
      cases t with
      | cons => simp at hd1
      | nil =>
        obtain ⟨e, K⟩ := e
        simp only [List.map_cons, List.map_nil, List.cons.injEq, and_true] at hd1
        subst hd1
        have hK := hd2 _ (List.mem_cons_self)
        simp only at hK
        have hv2 := v2 iv hiv K hK (Nat.zero_le _) (hcCol_lt _)
        rw [gOut_cons, gOut_nil]
        simp only [gSum, val_r]
        simp only [HcP.at] at hv2
        rw [show (K : ℤ) * os + 0 + ((iv : ℤ) * ovs + (0 : ℤ × ℤ).2) = (K : ℤ) * os + (iv : ℤ) * ovs by simp, hv2]
        rw [hc_dit r m hr hm (fun t => st.mem (I + ((t : ℤ) * is + (iv : ℤ) * ivs))) hK]
        · apply Finset.sum_congr rfl
          intro j _
          congr 3
          simp
        · intro k hk l hl
          have := v1 [((⟨m, (r : ℤ) * is, os⟩, .R2HC00), l)] ⟨rfl, by simpa using hl⟩
            ((k : ℤ) * is + iv * ivs, (k : ℤ) * ((m : ℤ) * os) + iv * ovs) (by
              refine mem_pairs_cons.2 ⟨k, hk, (iv * ivs, iv * ovs), mem_pairs_cons.2 ⟨iv, hiv, 0, by simp [pairs, offs], by simp⟩, by simp⟩)
          rw [gOut_cons, gOut_nil] at this
          simp only [gSum, val_r] at this
          rw [show ((k * m + l : ℕ) : ℤ) * os + (iv : ℤ) * ovs = (l : ℤ) * os + 0 + ((k : ℤ) * ((m : ℤ) * os) + iv * ovs) by push_cast; ring, this]
          apply Finset.sum_congr rfl
          intro i _
          congr 3
          push_cast; ring

/-- decimation in frequency -/
theorem GOK_hcdif {r m : ℕ} {is os : ℤ} {v : ℕ} {ivs ovs : ℤ} {inpl nd : Bool} {f1 : Ptr → State → State} {f2 : Ptr → Ptr → State → State}
    (hr : r ≠ 0) (hm : m ≠ 0) (hnd : inpl = true ∨ nd = false)
    (h1 : HcOK false ⟨r, m, is, v, ivs, 0, (m + 2) / 2⟩ f1)
    (h2 : GOK rK [(⟨m, is, (r : ℤ) * os⟩, .HC2R00)] (some [⟨r, (m : ℤ) * is, os⟩, ⟨v, ivs, ovs⟩]) 0 0 inpl nd f2) :
    GOK rK [(⟨r * m, is, os⟩, .HC2R00)] (some [⟨v, ivs, ovs⟩]) 0 0 inpl nd (fun I O st => f2 I O (f1 I st)) := by
  intro wf I O st hc
  have eiT : ins (locT ℝ 0 0 [((⟨r * m, is, os⟩ : Dim), RKind.HC2R00)] (some [⟨v, ivs, ovs⟩])) = offs [(r * m, is), (v, ivs)] := by rw [RdftS.ins_locT_real]; rfl
  have eoT : outs (locT ℝ 0 0 [((⟨r * m, is, os⟩ : Dim), RKind.HC2R00)] (some [⟨v, ivs, ovs⟩])) = offs [(r * m, os), (v, ovs)] := by rw [RdftS.outs_locT_real]; rfl
  have ei : ins (locT ℝ 0 0 [((⟨m, is, (r : ℤ) * os⟩ : Dim), RKind.HC2R00)] (some [⟨r, (m : ℤ) * is, os⟩, ⟨v, ivs, ovs⟩])) = offs [(r * m, is), (v, ivs)] := by
    rw [RdftS.ins_locT_real]; exact eo_hc
  have eo : outs (locT ℝ 0 0 [((⟨m, is, (r : ℤ) * os⟩ : Dim), RKind.HC2R00)] (some [⟨r, (m : ℤ) * is, os⟩, ⟨v, ivs, ovs⟩])) = offs [(r * m, os), (v, ovs)] := by
    rw [RdftS.outs_locT_real]; exact ei_hc
  have wo := wf.out
  have wi := wf.inp
  have we := wf.eq
  rw [eoT] at wo
  rw [eiT] at wi
  rw [eiT, eoT] at we
  have hin : (offs [(r * m, is), (v, ivs)]).Nodup := by
    rcases hnd with h | h
    · rw [we h]; exact wo
    · exact wi h
  obtain ⟨fr1, v1⟩ := h1 hin I st hc.blkI
  have wf2 : WF ℝ [((⟨m, is, (r : ℤ) * os⟩ : Dim), RKind.HC2R00)] (some [⟨r, (m : ℤ) * is, os⟩, ⟨v, ivs, ovs⟩]) 0 0 inpl nd :=
    ⟨by rw [eo]; exact wo, by rw [ei]; exact wi, by rw [ei, eo]; exact we, wf.delta⟩
  obtain ⟨fr2, v2⟩ := h2 wf2 I O (f1 I st) ⟨lt_of_lt_of_le hc.blkI fr1.next, lt_of_lt_of_le hc.blkO fr1.next, hc.same,
    fun h a ha b hb => hc.disj h a (by rw [eiT]; rw [ei] at ha; exact ha) b (by rw [eoT]; rw [eo] at hb; exact hb)⟩
  have hmem : ∀ i < v, ∀ p < r * m, (p : ℤ) * is + (i : ℤ) * ivs ∈ offs [(r * m, is), (v, ivs)] := by
    intro i hi p hp
    exact mem_offs_cons.2 ⟨p, hp, _, mem_offs_cons.2 ⟨i, hi, 0, mem_offs_nil.2 rfl, rfl⟩, by simp⟩
  refine ⟨fr1.trans fr2 ?_ ?_, ?_⟩
  · rintro q _ ⟨i, hi, p, hp, -, -, rfl⟩
    unfold Writable
    rw [eiT, eoT]
    rcases hnd with h | h
    · refine Or.inl ⟨_, by rw [← we h]; exact hmem i hi p hp, ?_⟩
      rw [← hc.same h]; rfl
    · exact Or.inr ⟨h, _, hmem i hi p hp, rfl⟩
  · intro q _ hq
    unfold Writable at hq ⊢
    rw [ei, eo] at hq
    rw [eiT, eoT]
    exact hq
  · rintro dk ⟨hd1, hd2⟩ ab hab
    obtain ⟨iv, hiv, q, hq, rfl⟩ := mem_pairs_cons.1 hab
    obtain rfl : q = 0 := by simpa [pairs, offs] using hq
    cases dk with
    | nil => simp at hd1
    | cons e t =>
      cases t with
      | cons => simp at hd1
      | nil =>
        obtain ⟨e, K⟩ := e
        simp only [List.map_cons, List.map_nil, List.cons.injEq, and_true] at hd1
        subst hd1
        have hK := hd2 _ (List.mem_cons_self)
        simp only at hK
        have hq : K / r < m := Nat.div_lt_of_lt_mul hK
        have hk : K % r < r := Nat.mod_lt _ (by omega)
        have hKe : K = K / r * r + K % r := by rw [mul_comm]; exact (Nat.div_add_mod K r).symm
        have hv2 := v2 [((⟨m, is, (r : ℤ) * os⟩, .HC2R00), K / r)] ⟨rfl, by simpa using hq⟩
            (((K % r : ℕ) : ℤ) * ((m : ℤ) * is) + iv * ivs, ((K % r : ℕ) : ℤ) * os + iv * ovs) (by
              refine mem_pairs_cons.2 ⟨K % r, hk, (iv * ivs, iv * ovs), mem_pairs_cons.2 ⟨iv, hiv, 0, by simp [pairs, offs], by simp⟩, by simp⟩)
        rw [gOut_cons, gOut_nil] at hv2
        simp only [gSum, val_r] at hv2
        have hct := hc_dif r m hr hm (fun p => st.mem (I + ((p : ℤ) * is + (iv : ℤ) * ivs))) (fun p => (f1 I st).mem (I + ((p : ℤ) * is + (iv : ℤ) * ivs)))
          (k := K % r) (K / r) (by
            intro l hl
            refine v1 iv hiv (K % r * m + l) ?_ (Nat.zero_le _) (hcCol_lt _)
            calc K % r * m + l < K % r * m + m := by omega
              _ = (K % r + 1) * m := by ring
              _ ≤ r * m := Nat.mul_le_mul_right _ hk)
        rw [← hKe] at hct
        rw [gOut_cons, gOut_nil]
        simp only [gSum, val_r]
        rw [show (K : ℤ) * os + 0 + ((iv : ℤ) * ovs + (0 : ℤ × ℤ).2) = ((K / r : ℕ) : ℤ) * ((r : ℤ) * os) + 0 + (((K % r : ℕ) : ℤ) * os + (iv : ℤ) * ovs) by
          conv_lhs => rw [hKe]
          push_cast; simp; ring, hv2]
        rw [show (∑ j ∈ Finset.range (r * m), rK .HC2R00 (r * m) j K * st.mem (I + ((j : ℤ) * is + 0 + ((iv : ℤ) * ivs + (0 : ℤ × ℤ).1)))) =
          ∑ j ∈ Finset.range (r * m), rK .HC2R00 (r * m) j K * st.mem (I + ((j : ℤ) * is + (iv : ℤ) * ivs)) by
            apply Finset.sum_congr rfl; intro j _; congr 3; simp, ← hct]
        apply Finset.sum_congr rfl
        intro l _
        congr 3
        push_cast; ring

end Spec

namespace RdftS
open DftS
variable [CLib]

/-- contract of a maker of halfcomplex twiddle steps -/
def HInferior.Sound (mk : HInferior) : Prop :=
  ∀ (fwd : Bool) (t : HcP) (IO : Ptr) (fl : Flags), 0 < t.r → 0 < t.m → 0 < t.mc → t.mb + t.mc ≤ (t.m + 2) / 2 →
    (mk fwd t IO fl).Good fl fun r => ∀ f, r = some f → HcOK fwd t f

theorem good_needH {fl : Flags} {Q : Plan → Prop} {R : HPlan → Prop} {w : Mk (Option HPlan)} {k : HPlan → Mk (Option Plan)}
    (hw : w.Good fl fun r => ∀ f, r = some f → R f) (hk : ∀ c, R c → (k c).Good fl fun r => ∀ pl, r = some pl → Q pl) :
    (Mk.needH w k).Good fl fun r => ∀ pl, r = some pl → Q pl := by
  apply Mk.Good.bind hw
  intro r hr
  cases r with
  | none => exact good_nada
  | some c => exact hk c (hr c rfl)

theorem hc2hcWith_sound {fm : Flags → FMod} (hfm : ∀ fl : Flags, (fl.modify (fm fl)).nd = fl.nd) (rdx : ℤ) (mkcldw : HInferior) (taste : Taste)
    (hw : HInferior.Sound mkcldw) : (hc2hcWith fm rdx mkcldw taste).Sound := by
  apply rdftSolver_sound
  intro p fl hk
  obtain ⟨hn0, hap, hvp, hip⟩ := kosher_rdft hk
  split
  rotate_left
  · exact good_nada
  rename_i d kind vec hsz hvec
  split
  rotate_left
  · exact good_nada
  rename_i vd rr htor hrr
  split
  rotate_left
  · exact good_nada
  rename_i happ
  obtain ⟨hkind, hr1, hrn, _⟩ := happ
  have hdvd : rr ∣ (d.n : ℤ) := by
    rcases Primes.chooseRadix_dvd hrr with h | h
    · omega
    · exact h
  obtain ⟨r, rfl⟩ : ∃ r : ℕ, rr = (r : ℤ) := ⟨rr.toNat, by omega⟩
  simp only [Int.toNat_natCast]
  have hdvd' : r ∣ d.n := by exact_mod_cast hdvd
  obtain ⟨m, hm⟩ := hdvd'
  have hr0 : r ≠ 0 := by omega
  have hm0 : m ≠ 0 := by rintro rfl; simp at hm; omega
  have hdm : d.n / r = m := by rw [hm]; exact Nat.mul_div_cancel_left _ (by omega)
  rw [hdm]
  obtain ⟨n, is, os⟩ := d
  obtain ⟨v, ivs, ovs⟩ := vd
  simp only at hm hrn ⊢
  subst hm
  have final : ∀ (g : Ptr → Ptr → State → State),
      GOK rK [(⟨r * m, is, os⟩, kind)] (some [⟨v, ivs, ovs⟩]) 0 0 (decide (p.I = p.O)) fl.nd g → FFTW.Sound fl.nd (.rdft p) (.rdft g) := by
    intro g h
    refine soundRdft (by simp [hvec]) ?_
    rw [hsz, hvec]
    exact h.vec_congr (tornk1_pairs htor)
  have hA : p.I ≠ p.O → Apart (some [⟨r * m, is, os⟩, ⟨v, ivs, ovs⟩]) p.I p.O := by
    intro hne
    have := hap hne
    rw [hsz, hvec] at this
    refine FFTW.Apart.of_pairs this ?_
    exact pairs_append_congr (a := [⟨r * m, is, os⟩]) (v := some [⟨v, ivs, ovs⟩]) (a' := [⟨r * m, is, os⟩]) (v' := some vec) rfl (tornk1_pairs htor).symm
  by_cases hk1 : kind = .R2HC00
  · subst hk1
    rw [if_pos rfl]
    apply good_needH (hw _ _ _ _ (Nat.pos_of_ne_zero hr0) (Nat.pos_of_ne_zero hm0) (by simp only; omega) (by simp only; omega))
    intro cldw hcw
    have hpos : PosK [((⟨m, (r : ℤ) * is, os⟩ : Dim), RKind.R2HC00)] := by
      intro e he; simp only [List.mem_singleton] at he; subst he; exact Nat.pos_of_ne_zero hm0
    apply good_need
    · apply kosher_mkproblemRdft hpos
      intro hne
      refine (hA hne).mono (fun a ha => ?_) (fun a ha => ?_)
      · change a ∈ offs [(m, (r : ℤ) * is), (r, is), (v, ivs)] at ha
        rw [ei_hc] at ha; exact ha
      · change a ∈ offs [(m, os), (r, (m : ℤ) * os), (v, ovs)] at ha
        rw [eo_hc] at ha; exact ha
    intro c hc
    rw [hfm] at hc
    obtain ⟨hG, _⟩ := sound_mkproblemRdft hpos hc
    apply good_ret
    apply final
    exact GOK_hcdit hr0 hm0 hG hcw
  · rw [if_neg hk1]
    rcases hkind with h | ⟨rfl, hnd⟩
    · exact absurd h hk1
    apply good_needH (hw _ _ _ _ (Nat.pos_of_ne_zero hr0) (Nat.pos_of_ne_zero hm0) (by simp only; omega) (by simp only; omega))
    intro cldw hcw
    have hpos : PosK [((⟨m, is, (r : ℤ) * os⟩ : Dim), RKind.HC2R00)] := by
      intro e he; simp only [List.mem_singleton] at he; subst he; exact Nat.pos_of_ne_zero hm0
    apply good_need
    · apply kosher_mkproblemRdft hpos
      intro hne
      refine (hA hne).mono (fun a ha => ?_) (fun a ha => ?_)
      · change a ∈ offs [(m, is), (r, (m : ℤ) * is), (v, ivs)] at ha
        rw [eo_hc] at ha; exact ha
      · change a ∈ offs [(m, (r : ℤ) * os), (r, os), (v, ovs)] at ha
        rw [ei_hc] at ha; exact ha
    intro c hc
    rw [hfm] at hc
    obtain ⟨hG, _⟩ := sound_mkproblemRdft hpos hc
    apply good_ret
    apply final
    exact GOK_hcdif hr0 hm0 (by rcases hnd with h | h; exact Or.inl (by simp [h]); exact Or.inr h) hcw hG

theorem hc2hc_sound (rdx : ℤ) (mkcldw : HInferior) (taste : Taste) (hw : HInferior.Sound mkcldw) : (hc2hc rdx mkcldw taste).Sound :=
  hc2hcWith_sound (fun fl => by rw [modify_default]) rdx mkcldw taste hw

end RdftS
end FFTW
