import Verif.Proofs.ApiExec
import Verif.Proofs.Writes
import Verif.Props.Planner

namespace FFTW.Api
open Tensor Spec DftS Planner
open MapFlags (U32)

variable [CLib]

theorem scale_Inp {c : ℤ} {L : Layout} {y : ℤ} : (scale c L).Inp y ↔ ∃ x, L.Inp x ∧ y = c * x := by
  simp only [Batch.Inp, scale_n, scale_v, scale_inp]
  constructor
  · rintro ⟨b, j, hb, hj, rfl⟩; exact ⟨_, ⟨b, j, hb, hj, rfl⟩, rfl⟩
  · rintro ⟨_, ⟨b, j, hb, hj, rfl⟩, rfl⟩; exact ⟨b, j, hb, hj, rfl⟩
theorem scale_Out {c : ℤ} {L : Layout} {y : ℤ} : (scale c L).Out y ↔ ∃ x, L.Out x ∧ y = c * x := by
  simp only [Batch.Out, scale_n, scale_v, scale_out]
  constructor
  · rintro ⟨b, j, hb, hj, rfl⟩; exact ⟨_, ⟨b, j, hb, hj, rfl⟩, rfl⟩
  · rintro ⟨_, ⟨b, j, hb, hj, rfl⟩, rfl⟩; exact ⟨b, j, hb, hj, rfl⟩

/-- offset of the real part, distance to the imaginary part -/
def Orient (e δ : ℤ) : Prop := (e = 0 ∧ δ = 1) ∨ (e = 1 ∧ δ = -1)

theorem loc_iff {e δ : ℤ} (h : Orient e δ) {p : Ptr} {P : ℤ → Prop} {q : Ptr} :
    (∃ c : ℕ, c < 2 ∧ ∃ x, P x ∧ q = p + e + ((c : ℤ) * δ + 2 * x)) ↔ CMem p P q := by
  simp only [Ptr.add_add]
  constructor
  · rintro ⟨c, hc, x, hx, rfl⟩
    refine ⟨x, hx, ?_⟩
    rcases h with ⟨rfl, rfl⟩ | ⟨rfl, rfl⟩ <;> rcases (by omega : c = 0 ∨ c = 1) with rfl | rfl
    · left; congr 1; push_cast; ring
    · right; congr 1; push_cast; ring
    · right; congr 1; push_cast; ring
    · left; congr 1; push_cast; ring
  · rintro ⟨x, hx, rfl | rfl⟩ <;> rcases h with ⟨rfl, rfl⟩ | ⟨rfl, rfl⟩
    · exact ⟨0, by norm_num, x, hx, by congr 1; push_cast; ring⟩
    · exact ⟨1, by norm_num, x, hx, by congr 1; push_cast; ring⟩
    · exact ⟨1, by norm_num, x, hx, by congr 1; push_cast; ring⟩
    · exact ⟨0, by norm_num, x, hx, by congr 1; push_cast; ring⟩

theorem in_loc {e δ δo : ℤ} (h : Orient e δ) {L : Layout} {p q : Ptr} :
    (∃ a ∈ ins (locT ℂ δ δo (tag (scale 2 L).dims) (some (scale 2 L).loops)), q = p + e + a) ↔ CMem p L.Inp q := by
  rw [← loc_iff h]
  constructor
  · rintro ⟨a, ha, rfl⟩
    obtain ⟨c, hc, y, hy, rfl⟩ := mem_ins_layout.1 ha
    obtain ⟨x, hx, rfl⟩ := scale_Inp.1 hy
    exact ⟨c, hc, x, hx, rfl⟩
  · rintro ⟨c, hc, x, hx, rfl⟩
    exact ⟨_, mem_ins_layout.2 ⟨c, hc, _, scale_Inp.2 ⟨x, hx, rfl⟩, rfl⟩, rfl⟩

theorem out_loc {e δ δi : ℤ} (h : Orient e δ) {L : Layout} {p q : Ptr} :
    (∃ a ∈ outs (locT ℂ δi δ (tag (scale 2 L).dims) (some (scale 2 L).loops)), q = p + e + a) ↔ CMem p L.Out q := by
  rw [← loc_iff h]
  constructor
  · rintro ⟨a, ha, rfl⟩
    obtain ⟨c, hc, y, hy, rfl⟩ := mem_outs_layout.1 ha
    obtain ⟨x, hx, rfl⟩ := scale_Out.1 hy
    exact ⟨c, hc, x, hx, rfl⟩
  · rintro ⟨c, hc, x, hx, rfl⟩
    exact ⟨_, mem_outs_layout.2 ⟨c, hc, _, scale_Out.2 ⟨x, hx, rfl⟩, rfl⟩, rfl⟩

theorem nonNeg_scale {L : Layout} (h : L.NonNeg) : FFTW.NonNeg (scale 2 L).dims ∧ FFTW.NonNeg (scale 2 L).loops := by
  constructor <;> intro d hd <;> obtain ⟨e, he, rfl⟩ := List.mem_map.1 hd
  · have := h e (Or.inl he); constructor <;> simp <;> omega
  · have := h e (Or.inr he); constructor <;> simp <;> omega

theorem ptr_add_left {p q : Ptr} {e : ℤ} (h : p + e = q + e) : p = q := by
  have h1 := congrArg Ptr.blk h; have h2 := congrArg Ptr.off h
  exact Ptr.ext h1 (by have : p.off + e = q.off + e := h2
                       omega)

/-- everything about interleaved arrays, in terms of the problem posed -/
theorem interleaved {L : Layout} {e δ : ℤ} (hor : Orient e δ) {inp out : Ptr} {nd : Bool} {pl : Plan}
    (hS : Sound nd (mkproblemDft (scale 2 L).dims (some (scale 2 L).loops) (inp + e) (inp + e + δ) (out + e) (out + e + δ)) pl)
    (ho : L.OutInj) (hi : nd = false → L.InInj)
    {inp' out' : Ptr} (hk : inp' = out' ↔ inp = out) (hsep : Separate L.batch inp' out') {st : State} (hbi : inp'.blk < st.next) (hbo : out'.blk < st.next) :
    let st' := pl.dftApply (inp' + e) (inp' + e + δ) (out' + e) (out' + e + δ) st
    Dfts (-1) L.batch (fun x => val st.mem (inp' + e) δ (2 * x)) (fun x => val st'.mem (out' + e) δ (2 * x)) ∧
    OnlyChanges st st' fun q => CMem out' L.Out q ∨ (nd = false ∧ CMem inp' L.Inp q) := by
  have hG := sound_mkproblemDft hS
  have hd : ∀ p : Ptr, (p + e + δ - (p + e) : ℤ) = δ := by intro p; show p.off + e + δ - (p.off + e) = δ; ring
  rw [hd, hd] at hG
  obtain ⟨hG, hE⟩ := hG
  have hdec : decide (inp + e = out + e) = decide (inp = out) := by
    rw [decide_eq_decide]; exact ⟨ptr_add_left, fun h => by rw [h]⟩
  rw [hdec] at hG
  have hδ2 : ∀ x y : ℤ, 2 * x ≠ δ + 2 * y := by intro x y; rcases hor with ⟨_, rfl⟩ | ⟨_, rfl⟩ <;> omega
  have wf : WF ℂ (tag (scale 2 L).dims) (some (scale 2 L).loops) δ δ (decide (inp = out)) nd := by
    apply wf_layout
    · intro b k b' k' hb hk hb' hk' he
      simp only [scale_n, scale_v, scale_out] at hb hk hb' hk' he
      exact ho b k b' k' hb hk hb' hk' (by omega)
    · intro x y hx hy
      obtain ⟨x, _, rfl⟩ := scale_Out.1 hx
      obtain ⟨y, _, rfl⟩ := scale_Out.1 hy
      exact hδ2 x y
    · intro hnd b k b' k' hb hk hb' hk' he
      simp only [scale_n, scale_v, scale_inp] at hb hk hb' hk' he
      exact hi hnd b k b' k' hb hk hb' hk' (by omega)
    · intro _ x y hx hy
      obtain ⟨x, _, rfl⟩ := scale_Inp.1 hx
      obtain ⟨y, _, rfl⟩ := scale_Inp.1 hy
      exact hδ2 x y
    · intro h
      exact ⟨rfl, (hE (by rw [of_decide_eq_true h])).2⟩
  have hcp : Compat (locT ℂ δ δ (tag (scale 2 L).dims) (some (scale 2 L).loops)) (decide (inp = out)) (inp' + e) (out' + e) st := by
    refine ⟨hbi, hbo, fun h => ?_, fun h a ha b hb hab => ?_⟩
    · rw [hk.2 (of_decide_eq_true h)]
    · have hne : ¬ inp = out := of_decide_eq_false h
      rcases hsep with hs | hs
      · exact hne (hk.1 hs)
      · exact hs _ ((in_loc hor).1 ⟨a, ha, rfl⟩) (hab ▸ (out_loc hor).1 ⟨b, hb, rfl⟩)
  obtain ⟨h1, h2⟩ := dfts_of_GOK hG wf hcp
  intro st'
  constructor
  · intro b k hb hk
    have := h1 b k (by rwa [scale_v]) (by rwa [scale_n])
    simpa only [scale_n, scale_out, scale_inp] using this
  · refine ⟨h2.next, fun q hq hw => ?_⟩
    refine h2.mem q hq fun h => hw ?_
    rcases h with h | ⟨hn, h⟩
    · exact Or.inl ((out_loc hor).1 h)
    · exact Or.inr ⟨hn, (in_loc hor).1 h⟩

theorem val_fwd (m : Ptr → ℝ) (p : Ptr) (x : ℤ) : (val m (p + (0 : ℤ)) 1 (2 * x) : ℂ) = celt m p x := by
  rw [val_c, celt]; simp only [Ptr.add_add]; congr 3 <;> ring
theorem val_bwd (m : Ptr → ℝ) (p : Ptr) (x : ℤ) : (val m (p + (1 : ℤ)) (-1) (2 * x) : ℂ) = sw (celt m p x) := by
  rw [val_c, celt, sw]; simp only [Ptr.add_add]; congr 3 <;> ring

theorem planWith_some {env : Env} {n : ℕ} {tl : ℝ} {flags : U32} {sign : Int} {prb : C (Option Problem)} {st st' : PSt} {ap : ApiPlan}
    (h : planWith env n tl flags sign prb st = .ok (some ap, st')) :
    ∃ p pl, prb = some (some p) ∧ mkapiplan env n tl flags p st = .ok (some pl, st') ∧ ap = ⟨pl, p, sign⟩ := by
  unfold planWith at h
  split at h
  · simp at h
  · simp at h
  · rename_i p
    split at h
    · simp at h
    · simp at h
    · rename_i pl st2 he
      simp only [Except.ok.injEq, Prod.mk.injEq, Option.some.injEq] at h
      obtain ⟨h1, h2⟩ := h
      subst h1 h2
      exact ⟨p, pl, rfl, he, rfl⟩

open Classical in
/-- everything about interleaved arrays, at the API -/
theorem interleaved_api {L : Layout} (env : Env) (hs : ∀ d ∈ env.slvdescs, d.slv.Sound) {n : ℕ} {tl : ℝ} {flags : U32} {sign : Int}
    {inp out : Ptr} {st0 st0' : PSt} {ap : ApiPlan} {prb : C (Option Problem)} (h : planWith env n tl flags sign prb st0 = .ok (some ap, st0'))
    (hp : ∀ p, prb = some (some p) → p = mkproblemDft (scale 2 L).dims (some (scale 2 L).loops) (extractReim sign inp).1 (extractReim sign inp).2
      (extractReim sign out).1 (extractReim sign out).2 ∧ ∀ d ∈ L.dims, 0 < d.n)
    (hn : L.NonNeg) (ho : L.OutInj) (hi : ¬ Preserves flags → L.InInj) (hsep0 : Separate L.batch inp out)
    {inp' out' : Ptr} (hk : inp' = out' ↔ inp = out) (hsep : Separate L.batch inp' out') {st : State} (hbi : inp'.blk < st.next) (hbo : out'.blk < st.next) :
    (Dfts (expSign sign) L.batch (celt st.mem inp') (celt (executeDft ap inp' out' st).mem out') ∧
      OnlyChanges st (executeDft ap inp' out' st) fun q => CMem out' L.Out q ∨ (¬ Preserves flags ∧ CMem inp' L.Inp q)) ∧
    execute ap = executeDft ap inp out := by
  obtain ⟨p, pl, hprb, hmk, rfl⟩ := planWith_some h
  obtain ⟨rfl, hpos⟩ := hp p hprb
  obtain ⟨hn1, hn2⟩ := nonNeg_scale hn
  obtain ⟨e, δ, hor, hx, hsg⟩ : ∃ e δ, Orient e δ ∧ (∀ c, extractReim sign c = (c + e, c + e + δ)) ∧
      ((e = 0 ∧ δ = 1 ∧ sign = -1) ∨ (e = 1 ∧ δ = -1 ∧ sign ≠ -1)) := by
    unfold extractReim FFT_SIGN
    by_cases hs1 : sign = -1
    · exact ⟨0, 1, Or.inl ⟨rfl, rfl⟩, fun c => by rw [if_pos hs1, Ptr.add_add]; rfl, Or.inl ⟨rfl, rfl, hs1⟩⟩
    · exact ⟨1, -1, Or.inr ⟨rfl, rfl⟩, fun c => by rw [if_neg hs1, Ptr.add_add]; rfl, Or.inr ⟨rfl, rfl, hs1⟩⟩
  have hxe : ∀ c d, executeDft ⟨pl, (mkproblemDft (scale 2 L).dims (some (scale 2 L).loops) (extractReim sign inp).1 (extractReim sign inp).2
      (extractReim sign out).1 (extractReim sign out).2), sign⟩ c d = pl.dftApply (c + e) (c + e + δ) (d + e) (d + e + δ) := by
    intro c d
    funext s
    have h1 := hx c; have h2 := hx d
    unfold extractReim at h1 h2
    unfold executeDft
    dsimp only
    split <;> rename_i hs1
    · rw [if_pos hs1] at h1 h2
      simp only [Prod.mk.injEq] at h1 h2
      rw [h1.1, h1.2, h2.1, h2.2]
    · rw [if_neg hs1] at h1 h2
      simp only [Prod.mk.injEq] at h1 h2
      rw [h1.1, h1.2, h2.1, h2.2]
  have hd : ∀ p : Ptr, (p + e + δ - (p + e) : ℤ) = δ := by intro p; show p.off + e + δ - (p.off + e) = δ; ring
  have hkosh : Kosher (mkproblemDft (scale 2 L).dims (some (scale 2 L).loops) (extractReim sign inp).1 (extractReim sign inp).2
      (extractReim sign out).1 (extractReim sign out).2) := by
    rw [hx, hx]
    refine kosher_mkproblemDft hn1 (nonNegV_some.2 hn2) ?_ ?_
    · intro d hd
      obtain ⟨d', hd', rfl⟩ := List.mem_map.1 hd
      exact hpos d' hd'
    · intro hne
      simp only [hd]
      intro a ha b hb hab
      rcases hsep0 with hs0 | hs0
      · exact hne (by rw [hs0])
      · exact hs0 _ ((in_loc hor).1 ⟨a, ha, rfl⟩) (hab ▸ (out_loc hor).1 ⟨b, hb, rfl⟩)
  have hS := C04_api_returns_only_correct_plans env hs n tl flags _ hkosh st0 st0' pl hmk
  constructor
  · have := interleaved (inp := inp) (out := out) hor (by simpa only [hx] using hS) ho (fun h => hi (of_decide_eq_false h)) hk hsep hbi hbo
    dsimp only at this
    rw [hxe]
    obtain ⟨h1, h2⟩ := this
    refine ⟨?_, ?_⟩
    · unfold expSign
      rcases hsg with ⟨rfl, rfl, hs1⟩ | ⟨rfl, rfl, hs1⟩
      · simp only [val_fwd] at h1; rw [if_pos hs1]; exact h1
      · simp only [val_bwd] at h1; rw [if_neg hs1]; exact dfts_sw h1
    · refine ⟨h2.next, fun q hq hw => ?_⟩
      exact h2.mem q hq fun h => hw (h.imp id fun h => ⟨of_decide_eq_false h.1, h.2⟩)
  · rw [hxe]
    funext s
    unfold execute mkproblemDft
    rw [hx, hx]
    dsimp only
    split
    · rename_i q hq
      split at hq
      · simp at hq
      · simp only [Problem.dft.injEq] at hq
        subst hq; rfl
    · rename_i q hq
      split at hq <;> simp at hq
    · rename_i q hq
      split at hq <;> simp at hq
    · rename_i q hq
      split at hq <;> simp at hq
    · rename_i hq
      exfalso
      split at hq
      · rename_i hc
        have := hS
        unfold mkproblemDft at this
        rw [hx, hx] at this
        dsimp only at this
        rw [if_pos hc] at this
        cases pl <;> exact this
      · simp at hq


end FFTW.Api
