import Verif.Props.Api

/-!
# C01, C02, C03, C05 for split arrays (`fftw_plan_guru_split_dft`, `fftw_execute_split_dft`)

Real and imaginary parts are in separate arrays.  Their distance is baked into the plan, so the two pointers of a pair are taken to be in
one block (the user's memory as a whole may be one block), and `fftw_execute_split_dft` must be given arrays with the same distance, as the
manual says ("the differences ii-ri and io-ro must be the same as for plan creation").
-/

namespace FFTW.Api
open Tensor Spec DftS Planner RowMajor
open MapFlags (U32)

variable [CLib]

/-- the two arrays of a pair have no element in common -/
def PartsApart (r i : Ptr) (P : ℤ → Prop) : Prop := ∀ x y, P x → P y → r + x ≠ i + y

/-- split arrays a plan can be executed on -/
structure FitsS (B : Batch) (ri ii ro io ri' ii' ro' io' : Ptr) (st : State) : Prop where
  kind : ri' = ro' ↔ ri = ro
  sep : SeparateS B ri' ii' ro' io'
  din : ii' = ri' + (ii - ri)
  dout : io' = ro' + (io - ro)
  inpOk : ri'.blk < st.next
  outOk : ro'.blk < st.next

theorem mem_in_split {L : Layout} {δi δo : ℤ} {r q : Ptr} :
    (∃ a ∈ ins (locT ℂ δi δo (tag L.dims) (some L.loops)), q = r + a) ↔ SMem r (r + δi) L.Inp q := by
  constructor
  · rintro ⟨a, ha, rfl⟩
    obtain ⟨c, hc, x, hx, rfl⟩ := mem_ins_layout.1 ha
    refine ⟨x, hx, ?_⟩
    rcases (by omega : c = 0 ∨ c = 1) with rfl | rfl
    · left; congr 1; push_cast; ring
    · right; rw [Ptr.add_add]; congr 1; push_cast; ring
  · rintro ⟨x, hx, rfl | rfl⟩
    · exact ⟨_, mem_ins_layout.2 ⟨0, by norm_num, x, hx, rfl⟩, by congr 1; push_cast; ring⟩
    · exact ⟨_, mem_ins_layout.2 ⟨1, by norm_num, x, hx, rfl⟩, by rw [Ptr.add_add]; congr 1; push_cast; ring⟩

theorem mem_out_split {L : Layout} {δi δo : ℤ} {r q : Ptr} :
    (∃ a ∈ outs (locT ℂ δi δo (tag L.dims) (some L.loops)), q = r + a) ↔ SMem r (r + δo) L.Out q := by
  constructor
  · rintro ⟨a, ha, rfl⟩
    obtain ⟨c, hc, x, hx, rfl⟩ := mem_outs_layout.1 ha
    refine ⟨x, hx, ?_⟩
    rcases (by omega : c = 0 ∨ c = 1) with rfl | rfl
    · left; congr 1; push_cast; ring
    · right; rw [Ptr.add_add]; congr 1; push_cast; ring
  · rintro ⟨x, hx, rfl | rfl⟩
    · exact ⟨_, mem_outs_layout.2 ⟨0, by norm_num, x, hx, rfl⟩, by congr 1; push_cast; ring⟩
    · exact ⟨_, mem_outs_layout.2 ⟨1, by norm_num, x, hx, rfl⟩, by rw [Ptr.add_add]; congr 1; push_cast; ring⟩

theorem ptr_sub_add {p q : Ptr} (h : p.blk = q.blk) : q + (p - q) = p := by
  refine Ptr.ext h.symm ?_
  show q.off + (p.off - q.off) = p.off
  ring

open Classical in
/-- **C05** (with C01, C02, C03), split arrays: executing a plan of the guru split interface on its own arrays (`fftw_execute`) or on others of
the same kind (`fftw_execute_split_dft`) stores the forward DFT of the input in the output; nothing else changes but the input, if that is allowed -/
theorem C05_guru_split_dft (env : Env) (hs : ∀ d ∈ env.slvdescs, d.slv.Sound) {chk : Int → C Int} (hc : ∀ x y, chk x = some y → y = x)
    {n : ℕ} {tl : ℝ} {flags : U32} {dims howmany : List IODim} {ri ii ro io : Ptr} {st0 st0' : PSt} {ap : ApiPlan}
    (h : planGuruSplitDft chk env n tl flags dims howmany ri ii ro io st0 = .ok (some ap, st0'))
    (hn : ∀ d, d ∈ dims ∨ d ∈ howmany → 0 ≤ d.is ∧ 0 ≤ d.os) (ho : (guruB dims howmany).OutInj) (hi : ¬ Preserves flags → (guruB dims howmany).InInj)
    (hb : ii.blk = ri.blk) (hb' : io.blk = ro.blk)
    (ho2 : PartsApart ro io (guruB dims howmany).Out) (hi2 : ¬ Preserves flags → PartsApart ri ii (guruB dims howmany).Inp)
    (hsep : SeparateS (guruB dims howmany) ri ii ro io)
    {ri' ii' ro' io' : Ptr} {st : State} (hf : FitsS (guruB dims howmany) ri ii ro io ri' ii' ro' io' st) :
    DoesDftS (-1) (guruB dims howmany) (¬ Preserves flags) ri' ii' ro' io' st (executeSplitDft ap ri' ii' ro' io' st) ∧
      execute ap = executeSplitDft ap ri ii ro io := by
  set L : Layout := ⟨dims.map ofIo, howmany.map ofIo⟩ with hL
  obtain ⟨p, pl, hprb, hmk, rfl⟩ := planWith_some h
  obtain ⟨hp, hpos⟩ : p = mkproblemDft L.dims (some L.loops) ri ii ro io ∧ ∀ d ∈ L.dims, 0 < d.n := by
    unfold guruSplitProblem at hprb
    split at hprb
    · simp at hprb
    rename_i hk
    simp only [Option.bind_eq_bind, Option.pure_def] at hprb
    obtain ⟨sz, hsz, hp⟩ := Option.bind_eq_some_iff.1 hprb
    obtain ⟨v, hv, hp⟩ := Option.bind_eq_some_iff.1 hp
    obtain rfl := Option.some.inj (Option.some.inj hp)
    have e1 : ∀ l : List Dim, l.map (fun d => (⟨d.n, 1 * d.is, 1 * d.os⟩ : Dim)) = l := by
      intro l; simp
    rw [iodims_eq hc 1 _ _ hsz, iodims_eq hc 1 _ _ hv, e1, e1]
    refine ⟨rfl, ?_⟩
    intro d hd
    obtain ⟨e, he, rfl⟩ := List.mem_map.1 hd
    simp only [guruKosherp, iodimsKosherp, Bool.not_eq_false, Bool.and_eq_true, List.all_eq_true, Bool.false_eq_true, if_false] at hk
    have := hk.1 e he
    simp only [Bool.not_eq_true', decide_eq_false_iff_not, not_le] at this
    show 0 < e.n.toNat
    omega
  subst hp
  have hnn : ∀ (l : List IODim), (∀ d ∈ l, 0 ≤ d.is ∧ 0 ≤ d.os) → FFTW.NonNeg (l.map ofIo) := by
    intro l hl d hd
    obtain ⟨e, he, rfl⟩ := List.mem_map.1 hd
    exact hl e he
  have hkosh : Kosher (mkproblemDft L.dims (some L.loops) ri ii ro io) := by
    refine kosher_mkproblemDft (hnn _ fun d hd => hn d (Or.inl hd)) (nonNegV_some.2 (hnn _ fun d hd => hn d (Or.inr hd))) hpos ?_
    intro hne a ha b hb2 hab
    rcases hsep with hs0 | hs0
    · exact hne hs0.1
    · have h1 := (mem_in_split (L := L) (r := ri)).1 ⟨a, ha, rfl⟩
      have h2 := (mem_out_split (L := L) (r := ro)).1 ⟨b, hb2, rfl⟩
      rw [ptr_sub_add hb] at h1
      rw [ptr_sub_add hb', ← hab] at h2
      exact hs0 _ h1 h2
  have hS := C04_api_returns_only_correct_plans env hs n tl flags _ hkosh st0 st0' pl hmk
  obtain ⟨hG, hE⟩ := sound_mkproblemDft hS
  have hoff : ∀ (r i : Ptr) (P : ℤ → Prop), i.blk = r.blk → PartsApart r i P → ∀ x y, P x → P y → x ≠ (i - r : ℤ) + y := by
    intro r i P hbb hpa x y hx hy hxy
    refine hpa x y hx hy (Ptr.ext hbb.symm ?_)
    show r.off + x = i.off + y
    have : x = i.off - r.off + y := hxy
    linarith
  have wf : WF ℂ (tag L.dims) (some L.loops) (ii - ri) (io - ro) (decide (ri = ro)) (decide (Preserves flags)) := by
    refine wf_layout ho (hoff _ _ _ hb' ho2) (fun h => hi (of_decide_eq_false h)) (fun h => hoff _ _ _ hb (hi2 (of_decide_eq_false h))) fun h => ?_
    have hr := of_decide_eq_true h
    obtain ⟨h1, h2⟩ := hE hr
    exact ⟨by rw [hr, h1], h2⟩
  have hcp : Compat (locT ℂ (ii - ri) (io - ro) (tag L.dims) (some L.loops)) (decide (ri = ro)) ri' ro' st := by
    refine ⟨hf.inpOk, hf.outOk, fun h => hf.kind.2 (of_decide_eq_true h), fun h a ha b hb2 hab => ?_⟩
    rcases hf.sep with hs0 | hs0
    · exact (of_decide_eq_false h) (hf.kind.1 hs0.1)
    · have h1 := (mem_in_split (L := L) (r := ri')).1 ⟨a, ha, rfl⟩
      have h2 := (mem_out_split (L := L) (r := ro')).1 ⟨b, hb2, rfl⟩
      rw [← hf.din] at h1
      rw [← hf.dout, ← hab] at h2
      exact hs0 _ h1 h2
  obtain ⟨h1, h2⟩ := dfts_of_GOK hG wf hcp
  rw [← hf.din, ← hf.dout] at h1 h2
  have hsel : ∀ (m : Ptr → ℝ) (r i : Ptr) (δ : ℤ), i = r + δ → (fun x => (val m r δ x : ℂ)) = selt m r i := by
    intro m r i δ hi; funext x; rw [val_c, selt, hi, Ptr.add_add]
  rw [hsel _ _ _ _ hf.din, hsel _ _ _ _ hf.dout] at h1
  refine ⟨⟨h1, h2.next, fun q hq hw => h2.mem q hq ?_⟩, ?_⟩
  · rintro (h | ⟨h0, h⟩)
    · exact hw (Or.inl (by have := mem_out_split.1 h; rwa [← hf.dout] at this))
    · exact hw (Or.inr ⟨of_decide_eq_false h0, by have := mem_in_split.1 h; rwa [← hf.din] at this⟩)
  · funext s
    have : ∃ q : DftP, mkproblemDft L.dims (some L.loops) ri ii ro io = .dft q ∧ q.ri = ri ∧ q.ii = ii ∧ q.ro = ro ∧ q.io = io := by
      by_cases hu : (ri = ro ∨ ii = io) ∧ (ri ≠ ro ∨ ii ≠ io ∨ inplaceLocations (some L.dims) (some L.loops) = false)
      · unfold mkproblemDft at hS
        rw [if_pos hu] at hS
        exact absurd hS (by cases pl <;> exact id)
      · exact ⟨_, by unfold mkproblemDft; rw [if_neg hu], rfl, rfl, rfl, rfl⟩
    obtain ⟨q, hq, e1, e2, e3, e4⟩ := this
    unfold execute executeSplitDft
    dsimp only
    rw [hq]
    dsimp only
    rw [e1, e2, e3, e4]

end FFTW.Api
