import Verif.Proofs.GenSeq
import Verif.Spec.Rdft2

/-! # The contract of real-to-complex plans: monotonicity, other descriptions, loops -/

namespace FFTW.Spec
open FFTW.Tensor

theorem spread_bind (F : Multiset ℤ) {m : ℕ} (S : ℕ → Multiset ℤ) (s : ℕ → ℤ) :
    spread F ((Multiset.range m).bind fun i => (S i).map fun x => s i + x) =
      (Multiset.range m).bind fun i => (spread F (S i)).map fun x => s i + x := by
  unfold spread
  rw [Multiset.bind_assoc]
  refine Multiset.bind_congr fun i _ => ?_
  rw [Multiset.bind_map, Multiset.map_bind]
  refine Multiset.bind_congr fun r _ => ?_
  rw [Multiset.map_map]
  exact Multiset.map_congr rfl fun x _ => by simp only [Function.comp]; ring

theorem mem_spread {F R : Multiset ℤ} {x : ℤ} : x ∈ spread F R ↔ ∃ r ∈ R, ∃ y ∈ F, x = r + y := by
  simp only [spread, Multiset.mem_bind, Multiset.mem_map]
  constructor
  · rintro ⟨r, hr, y, hy, rfl⟩; exact ⟨r, hr, y, hy, rfl⟩
  · rintro ⟨r, hr, y, hy, rfl⟩; exact ⟨r, hr, y, hy, rfl⟩

theorem mem_hIns {h : Half} {T : Tensor} {x : ℤ} : x ∈ hIns h T ↔ ∃ ab ∈ pairs T, ∃ i < h.na, x = ab.1 + h.A i := by
  rw [hIns, mem_spread]
  constructor
  · rintro ⟨r, hr, y, hy, rfl⟩
    obtain ⟨i, hi, rfl⟩ := Multiset.mem_map.1 hy
    obtain ⟨b, hb⟩ := mem_ins.1 hr
    exact ⟨_, hb, i, Multiset.mem_range.1 hi, rfl⟩
  · rintro ⟨ab, hab, i, hi, rfl⟩
    exact ⟨ab.1, mem_ins.2 ⟨_, hab⟩, _, Multiset.mem_map_of_mem _ (Multiset.mem_range.2 hi), rfl⟩

theorem mem_hOuts {h : Half} {T : Tensor} {x : ℤ} : x ∈ hOuts h T ↔ ∃ ab ∈ pairs T, ∃ t < h.nb, x = ab.2 + h.B t := by
  rw [hOuts, mem_spread]
  constructor
  · rintro ⟨r, hr, y, hy, rfl⟩
    obtain ⟨i, hi, rfl⟩ := Multiset.mem_map.1 hy
    obtain ⟨b, hb⟩ := mem_outs.1 hr
    exact ⟨_, hb, i, Multiset.mem_range.1 hi, rfl⟩
  · rintro ⟨ab, hab, i, hi, rfl⟩
    exact ⟨ab.2, mem_outs.2 ⟨_, hab⟩, _, Multiset.mem_map_of_mem _ (Multiset.mem_range.2 hi), rfl⟩

/-- the locations of one row -/
def Half.foot (h : Half) (x : ℤ) : Prop := (∃ i < h.na, x = h.A i) ∨ ∃ t < h.nb, x = h.B t

theorem mem_hAll {h : Half} {T : Tensor} {x : ℤ} : x ∈ hAll h T ↔ ∃ ab ∈ pairs T, ∃ y, h.foot y ∧ x = ab.1 + y := by
  rw [hAll, mem_spread]
  simp only [Multiset.mem_dedup, Multiset.mem_add, Multiset.mem_map, Multiset.mem_range, Half.foot]
  constructor
  · rintro ⟨r, hr, y, hy, rfl⟩
    obtain ⟨b, hb⟩ := mem_ins.1 hr
    refine ⟨_, hb, y, ?_, rfl⟩
    rcases hy with ⟨i, hi, rfl⟩ | ⟨i, hi, rfl⟩
    · exact Or.inl ⟨i, hi, rfl⟩
    · exact Or.inr ⟨i, hi, rfl⟩
  · rintro ⟨ab, hab, y, hy, rfl⟩
    refine ⟨ab.1, mem_ins.2 ⟨_, hab⟩, y, ?_, rfl⟩
    rcases hy with ⟨i, hi, rfl⟩ | ⟨i, hi, rfl⟩
    · exact Or.inl ⟨i, hi, rfl⟩
    · exact Or.inr ⟨i, hi, rfl⟩

theorem HOK.weaken {h : Half} {sz : List (Dim × Unit)} {vec : Tensor} {inpl : Bool} {f : Ptr → Ptr → State → State} {nd nd' : Bool}
    (hnd : nd' = true → nd = true) (hf : HOK h sz vec inpl nd f) : HOK h sz vec inpl nd' f := by
  have key : nd = false → nd' = false := by cases nd'; simp; rw [hnd rfl]; simp
  intro wf I O st hc
  obtain ⟨h1, h2⟩ := hf ⟨wf.out, fun h' => wf.inp (h'.imp_left key), wf.eq, wf.all⟩ I O st hc
  refine ⟨h1.mono ?_, h2⟩
  rintro q _ (h | ⟨h, h'⟩)
  · exact Or.inl h
  · exact Or.inr ⟨h.imp_left key, h'⟩

theorem pairs_app (l : List Dim) (b : Tensor) : pairs (append (some l) b) = (pairs (some l)).bind fun x => (pairs b).map fun y => x + y := by
  cases b with
  | none => simp only [append, pairs, Multiset.map_zero, Multiset.bind_zero]
  | some b => exact pairs_append l b

/-- the contract depends only on where the rows are -/
theorem HOK.transfer {h : Half} {sz sz' : List (Dim × Unit)} {vec vec' : Tensor} {inpl nd : Bool} {f : Ptr → Ptr → State → State}
    (hf : HOK h sz' vec' inpl nd f)
    (hp : pairs vec = pairs vec') (hl : pairs (some (sz.map Prod.fst)) = pairs (some (sz'.map Prod.fst)))
    (hdk : ∀ dk, GIdx sz dk → ∃ dk', GIdx sz' dk' ∧ gOut dk' = gOut dk ∧ ∀ x, gSum h.K dk' x = gSum h.K dk x) :
    HOK h sz vec inpl nd f := by
  have hT : pairs (append (some (sz.map Prod.fst)) vec) = pairs (append (some (sz'.map Prod.fst)) vec') := by
    rw [pairs_app, pairs_app, hp, hl]
  have hI : hIns h (append (some (sz.map Prod.fst)) vec) = hIns h (append (some (sz'.map Prod.fst)) vec') := by
    rw [hIns, hIns, ins_eq, ins_eq, hT]
  have hO : hOuts h (append (some (sz.map Prod.fst)) vec) = hOuts h (append (some (sz'.map Prod.fst)) vec') := by
    rw [hOuts, hOuts, outs_eq, outs_eq, hT]
  have hA : hAll h (append (some (sz.map Prod.fst)) vec) = hAll h (append (some (sz'.map Prod.fst)) vec') := by
    rw [hAll, hAll, ins_eq, ins_eq, hT]
  intro wf I O st hc
  obtain ⟨h1, h2⟩ := hf ⟨hO ▸ wf.out, fun h => hI ▸ wf.inp h, fun h => by rw [← hT]; exact wf.eq h, fun h => hA ▸ wf.all h⟩ I O st
    ⟨hc.blkI, hc.blkO, hc.same, fun h => by rw [HApart, ← hI, ← hO]; exact hc.disj h⟩
  refine ⟨h1.mono ?_, ?_⟩
  · rintro q _ h; simpa only [HWritable, hI, hO] using h
  · intro dk hd ab hab t ht
    obtain ⟨dk', i1, i2, i3⟩ := hdk dk hd
    rw [← i2, h2 dk' i1 ab (hp ▸ hab) t ht, i3]

theorem HOK.vec_congr {h : Half} {sz : List (Dim × Unit)} {vec vec' : Tensor} {inpl nd : Bool} {f : Ptr → Ptr → State → State}
    (hf : HOK h sz vec' inpl nd f) (hp : pairs vec = pairs vec') : HOK h sz vec inpl nd f :=
  hf.transfer hp rfl fun dk hd => ⟨dk, hd, rfl, fun _ => rfl⟩

theorem HOK.congr {h : Half} {sz : List (Dim × Unit)} {vec : Tensor} {inpl nd : Bool} {f g : Ptr → Ptr → State → State}
    (hf : HOK h sz vec inpl nd f) (hfg : ∀ I O st, g I O st = f I O st) : HOK h sz vec inpl nd g := by
  have : g = f := by funext I O st; exact hfg I O st
  rwa [this]

/-- nothing to do -/
theorem HOK_empty {h : Half} {sz : List (Dim × Unit)} {vec : Tensor} (hv : pairs vec = 0) (inpl nd : Bool) :
    HOK h sz vec inpl nd (fun _ _ st => st) := by
  intro wf I O st hc
  refine ⟨Frame.refl _ _, ?_⟩
  intro dk _ ab hab
  rw [hv] at hab; simp at hab

/-- **Pieces.** The vector of transforms is cut into pieces, done one after the other. -/
theorem HOK_pieces {h : Half} {sz : List (Dim × Unit)} {inpl nd : Bool} {m : ℕ} {voff : ℕ → ℤ × ℤ} {vecs : ℕ → Tensor} {vec : Tensor}
    {ip : ℕ → Bool} {f : ℕ → Ptr → Ptr → State → State}
    (hp : pairs vec = (Multiset.range m).bind fun i => (pairs (vecs i)).map fun v => voff i + v)
    (hc : ∀ i < m, HOK h sz (vecs i) (ip i) nd (f i))
    (hA : ∀ i < m, ip i = true → inpl = true ∧ (voff i).1 = (voff i).2)
    (hB : ∀ i < m, ip i = false → inpl = false ∨ pairs (vecs i) = 0) :
    HOK h sz vec inpl nd (fun I O st => forN m (fun i st => f i (I + (voff i).1) (O + (voff i).2) st) st) := by
  intro wf I O st hcomp
  set T := append (some (sz.map Prod.fst)) vec with hT
  set Tc := fun i => append (some (sz.map Prod.fst)) (vecs i) with hTc
  have hpp : pairs T = (Multiset.range m).bind fun i => (pairs (Tc i)).map fun v => voff i + v := by
    simp only [hT, hTc, pairs_app, hp, Multiset.map_bind, Multiset.map_map, Function.comp_def]
    rw [Multiset.bind_bind (Multiset.range m)]
    refine Multiset.bind_congr fun c _ => Multiset.bind_congr fun i _ => Multiset.map_congr rfl fun v _ => ?_
    ring_nf
  have hIT : ins T = (Multiset.range m).bind fun i => (ins (Tc i)).map fun v => (voff i).1 + v := by
    rw [ins_eq, hpp, Multiset.map_bind]
    refine Multiset.bind_congr fun i _ => ?_
    rw [ins_eq, Multiset.map_map, Multiset.map_map]; rfl
  have hOT : outs T = (Multiset.range m).bind fun i => (outs (Tc i)).map fun v => (voff i).2 + v := by
    rw [outs_eq, hpp, Multiset.map_bind]
    refine Multiset.bind_congr fun i _ => ?_
    rw [outs_eq, Multiset.map_map, Multiset.map_map]; rfl
  have hI : hIns h T = (Multiset.range m).bind fun i => (hIns h (Tc i)).map fun v => (voff i).1 + v := by
    rw [hIns, hIT]; exact spread_bind _ _ _
  have hO : hOuts h T = (Multiset.range m).bind fun i => (hOuts h (Tc i)).map fun v => (voff i).2 + v := by
    rw [hOuts, hOT]; exact spread_bind _ _ _
  have hF : hAll h T = (Multiset.range m).bind fun i => (hAll h (Tc i)).map fun v => (voff i).1 + v := by
    rw [hAll, hIT]; exact spread_bind _ _ _
  have hmI : ∀ j < m, ∀ a ∈ hIns h (Tc j), (voff j).1 + a ∈ hIns h T := by
    intro j hj a ha; rw [hI, Multiset.mem_bind]; exact ⟨j, Multiset.mem_range.2 hj, Multiset.mem_map_of_mem _ ha⟩
  have hmO : ∀ j < m, ∀ a ∈ hOuts h (Tc j), (voff j).2 + a ∈ hOuts h T := by
    intro j hj a ha; rw [hO, Multiset.mem_bind]; exact ⟨j, Multiset.mem_range.2 hj, Multiset.mem_map_of_mem _ ha⟩
  have hnO := wf.out
  rw [← hT, hO] at hnO
  obtain ⟨nO, sepO⟩ := pieces_nodup hnO
  have hnI : nd = false ∨ inpl = true → _ := fun h' => by
    have := wf.inp h'
    rw [← hT, hI] at this
    exact pieces_nodup this
  have hnF : inpl = true → _ := fun h' => by
    have := wf.all h'
    rw [← hT, hF] at this
    exact pieces_nodup this
  have hpe : ∀ j < m, ∀ ab ∈ pairs (Tc j), voff j + ab ∈ pairs T := by
    intro j hj ab hab; rw [hpp, Multiset.mem_bind]; exact ⟨j, Multiset.mem_range.2 hj, Multiset.mem_map_of_mem _ hab⟩
  -- nonempty pieces of an in-place problem are in place
  have hne : inpl = true → ∀ i < m, ∀ ab ∈ pairs (Tc i), ip i = true ∧ (voff i).1 = (voff i).2 ∧ ab.1 = ab.2 := by
    intro h' i hi ab ha
    cases hip : ip i with
    | true =>
      have h2 := (hA i hi hip).2
      have h3 := wf.eq h' _ (hpe i hi ab ha)
      simp only [Prod.fst_add, Prod.snd_add] at h3
      exact ⟨rfl, h2, by omega⟩
    | false =>
      exfalso
      rcases hB i hi hip with h'' | h''
      · rw [h'] at h''; exact absurd h'' (by simp)
      · have : pairs (Tc i) = 0 := by rw [hTc]; simp only [pairs_app, h'']; simp
        rw [this] at ha
        simp at ha
  -- in place everything is inside the footprint
  have inF : inpl = true → ∀ j < m, ∀ x, (x ∈ hIns h (Tc j) ∨ x ∈ hOuts h (Tc j)) → x ∈ hAll h (Tc j) ∧ (voff j).1 = (voff j).2 := by
    rintro h' j hj x (hx | hx)
    · obtain ⟨ab, hab, i, hi, rfl⟩ := mem_hIns.1 hx
      exact ⟨mem_hAll.2 ⟨ab, hab, _, Or.inl ⟨i, hi, rfl⟩, rfl⟩, (hne h' j hj ab hab).2.1⟩
    · obtain ⟨ab, hab, i, hi, rfl⟩ := mem_hOuts.1 hx
      have := hne h' j hj ab hab
      exact ⟨mem_hAll.2 ⟨ab, hab, _, Or.inr ⟨i, hi, rfl⟩, by rw [this.2.2]⟩, this.2.1⟩
  -- pieces do not interfere
  have sep : ∀ j < m, ∀ k < m, j ≠ k → ∀ q, ((∃ a ∈ hIns h (Tc j), q = I + ((voff j).1 + a)) ∨ ∃ b ∈ hOuts h (Tc j), q = O + ((voff j).2 + b)) →
      ¬ HWritable h (Tc k) (ip k) nd (I + (voff k).1) (O + (voff k).2) q := by
    intro j hj k hk hjk q hq hw
    cases hip : inpl with
    | true =>
      have hIO := hcomp.same hip; subst hIO
      have e1 : ∃ x ∈ hAll h (Tc j), q = I + ((voff j).1 + x) := by
        rcases hq with ⟨a, ha, rfl⟩ | ⟨a, ha, rfl⟩
        · exact ⟨a, (inF hip j hj a (Or.inl ha)).1, rfl⟩
        · have := inF hip j hj a (Or.inr ha)
          exact ⟨a, this.1, by rw [this.2]⟩
      have e2 : ∃ x ∈ hAll h (Tc k), q = I + ((voff k).1 + x) := by
        rcases hw with ⟨a, ha, rfl⟩ | ⟨-, a, ha, rfl⟩
        · have := inF hip k hk a (Or.inr ha)
          exact ⟨a, this.1, by rw [Ptr.add_add, this.2]⟩
        · exact ⟨a, (inF hip k hk a (Or.inl ha)).1, by rw [Ptr.add_add]⟩
      obtain ⟨x, hx, rfl⟩ := e1
      obtain ⟨y, hy, e⟩ := e2
      rw [Ptr.add_inj] at e
      exact (hnF hip).2 j hj k hk hjk x hx y hy e
    | false =>
      have hipk : ip k = false := by
        cases e : ip k; rfl; rw [(hA k hk e).1] at hip; simp at hip
      rcases hw with ⟨b, hb, rfl⟩ | ⟨hnd, a, ha, rfl⟩
      · rw [Ptr.add_add] at hq
        rcases hq with ⟨a', ha', e⟩ | ⟨b', hb', e⟩
        · exact hcomp.disj hip _ (hmI j hj a' ha') _ (hmO k hk b hb) e.symm
        · rw [Ptr.add_inj] at e
          exact sepO k hk j hj (Ne.symm hjk) b hb b' hb' e
      · have hnd : nd = false := by
          rcases hnd with h' | h'
          · exact h'
          · rw [hipk] at h'; simp at h'
        rw [Ptr.add_add] at hq
        rcases hq with ⟨a', ha', e⟩ | ⟨b', hb', e⟩
        · rw [Ptr.add_inj] at e
          exact (hnI (Or.inl hnd)).2 k hk j hj (Ne.symm hjk) a ha a' ha' e
        · exact hcomp.disj hip _ (hmI k hk a ha) _ (hmO j hj b' hb') e
  have wfc : ∀ i < m, HWF h (sz.map Prod.fst) (vecs i) (ip i) nd := by
    intro i hi
    refine ⟨nO i hi, fun h' => (hnI ?_).1 i hi, fun h' ab hab => (hne (hA i hi h').1 i hi ab hab).2.2, fun h' => (hnF (hA i hi h').1).1 i hi⟩
    exact h'.imp_right fun h' => (hA i hi h').1
  set body := fun (i : ℕ) (st : State) => f i (I + (voff i).1) (O + (voff i).2) st with hbody
  have key : ∀ k ≤ m, Frame st (forN k body st) (fun q => ∃ j < k, HWritable h (Tc j) (ip j) nd (I + (voff j).1) (O + (voff j).2) q) ∧
      ∀ j < k, ∀ dk, GIdx sz dk → ∀ ab ∈ pairs (vecs j), ∀ t < h.nb,
        (forN k body st).mem (O + (voff j).2 + (gOut dk + ab.2 + h.B t)) =
          h.P t (gSum h.K dk fun o => ∑ i ∈ Finset.range h.na, h.c t i * ((st.mem (I + (voff j).1 + (o + ab.1 + h.A i)) : ℝ) : ℂ)) := by
    intro k
    induction k with
    | zero => intro _; exact ⟨Frame.refl _ _, fun j hj => absurd hj (Nat.not_lt_zero _)⟩
    | succ k ih =>
      intro hk
      obtain ⟨fr, vals⟩ := ih (by omega)
      have hcc : HCompat h (Tc k) (ip k) (I + (voff k).1) (O + (voff k).2) (forN k body st) := by
        refine ⟨lt_of_lt_of_le hcomp.blkI fr.next, lt_of_lt_of_le hcomp.blkO fr.next, ?_, ?_⟩
        · intro h'; rw [hcomp.same (hA k (by omega) h').1, (hA k (by omega) h').2]
        · intro h' a ha b hb
          rw [Ptr.add_add, Ptr.add_add]
          rcases hB k (by omega) h' with h'' | h''
          · exact hcomp.disj h'' _ (hmI k (by omega) a ha) _ (hmO k (by omega) b hb)
          · exfalso
            have : pairs (Tc k) = 0 := by rw [hTc]; simp only [pairs_app, h'']; simp
            obtain ⟨ab, hab, -⟩ := mem_hIns.1 ha
            rw [this] at hab
            simp at hab
      obtain ⟨fr2, vals2⟩ := hc k (by omega) (wfc k (by omega)) _ _ _ hcc
      have unch : ∀ q, q.blk < st.next → (∃ a ∈ hIns h (Tc k), q = I + ((voff k).1 + a)) → (forN k body st).mem q = st.mem q := by
        rintro q hq ha
        apply fr.mem q hq
        rintro ⟨j, hj, hw⟩
        exact sep k (by omega) j (by omega) (by omega) q (Or.inl ha) hw
      refine ⟨Frame.trans fr fr2 ?_ ?_, ?_⟩
      · rintro q _ ⟨j, hj, h⟩; exact ⟨j, by omega, h⟩
      · rintro q _ h; exact ⟨k, by omega, h⟩
      · intro j hj dk hdk ab hab t ht
        rcases Nat.lt_succ_iff_lt_or_eq.1 hj with hj | rfl
        · rw [← vals j hj dk hdk ab hab t ht]
          rw [forN_succ]
          apply fr2.mem
          · exact lt_of_lt_of_le hcomp.blkO fr.next
          · obtain ⟨a, ha⟩ := gOut_mem hdk
            apply sep j (by omega) k (by omega) (by omega)
            right
            refine ⟨gOut dk + ab.2 + h.B t, mem_hOuts.2 ⟨(a, gOut dk) + ab, ?_, t, ht, by simp⟩, by rw [Ptr.add_add]⟩
            rw [hTc]; simp only [pairs_app, Multiset.mem_bind, Multiset.mem_map]
            exact ⟨_, ha, ab, hab, rfl⟩
        · rw [forN_succ, hbody]
          rw [vals2 dk hdk ab hab t ht]
          congr 1
          apply gSum_congr
          intro o ho
          refine Finset.sum_congr rfl fun i hi => ?_
          rw [Finset.mem_range] at hi
          rw [unch (I + (voff j).1 + (o + ab.1 + h.A i)) hcomp.blkI]
          refine ⟨o + ab.1 + h.A i, mem_hIns.2 ?_, by rw [Ptr.add_add]⟩
          rw [mem_ins] at ho
          obtain ⟨b, hb⟩ := ho
          have hmap : (dk.map fun e => e.1.1) = sz.map Prod.fst := by rw [← hdk.1, List.map_map]; rfl
          rw [hmap] at hb
          refine ⟨(o, b) + ab, ?_, i, hi, by simp⟩
          rw [hTc]; simp only [pairs_app, Multiset.mem_bind, Multiset.mem_map]
          exact ⟨_, hb, ab, hab, rfl⟩
  obtain ⟨fr, vals⟩ := key m (le_refl _)
  refine ⟨fr.mono ?_, ?_⟩
  · rintro q _ ⟨j, hj, ⟨b, hb, rfl⟩ | ⟨hnd, a, ha, rfl⟩⟩
    · exact Or.inl ⟨_, hmO j hj b hb, by rw [Ptr.add_add]⟩
    · exact Or.inr ⟨hnd.imp_right fun h => (hA j hj h).1, _, hmI j hj a ha, by rw [Ptr.add_add]⟩
  · intro dk hdk ab hab t ht
    rw [hp, Multiset.mem_bind] at hab
    obtain ⟨j, hj, hab⟩ := hab
    rw [Multiset.mem_map] at hab
    obtain ⟨q, hq, rfl⟩ := hab
    have := vals j (Multiset.mem_range.1 hj) dk hdk q hq t ht
    rw [Ptr.add_add] at this
    rw [show gOut dk + (voff j + q).2 + h.B t = (voff j).2 + (gOut dk + q.2 + h.B t) by simp; ring, this]
    congr 2; funext o
    refine Finset.sum_congr rfl fun i _ => ?_
    rw [Ptr.add_add, show (voff j).1 + (o + q.1 + h.A i) = o + (voff j + q).1 + h.A i by simp; ring]

/-- a loop over one vector dimension (vrank-geq1-rdft2.c) -/
theorem HOK_loop {h : Half} {sz : List (Dim × Unit)} {inpl nd : Bool} {f : Ptr → Ptr → State → State} {d : Dim} {rest : List Dim}
    (hc : HOK h sz (some rest) inpl nd f) (hs : inpl = true → d.is = d.os) :
    HOK h sz (some (d :: rest)) inpl nd
      (fun I O st => forN d.n (fun i st => f (I + (i : ℤ) * d.is) (O + (i : ℤ) * d.os) st) st) :=
  HOK_pieces (m := d.n) (voff := fun i => ((i : ℤ) * d.is, (i : ℤ) * d.os)) (vecs := fun _ => some rest) (ip := fun _ => inpl)
    (f := fun _ => f) (pairs_cons d rest) (fun _ _ => hc) (fun i _ h => ⟨h, by simp only; rw [hs h]⟩) (fun _ _ h => Or.inl h)

/-- the first `a` transforms, then the remaining `b` -/
theorem HOK_concat {h : Half} {sz : List (Dim × Unit)} {inpl ip2 nd : Bool} {f g : Ptr → Ptr → State → State} {a b : ℕ} {s t : ℤ} {l : List Dim}
    (hf : HOK h sz (some (⟨a, s, t⟩ :: l)) inpl nd f) (hg : HOK h sz (some (⟨b, s, t⟩ :: l)) ip2 nd g)
    (hA : ip2 = true → inpl = true ∧ (a : ℤ) * s = (a : ℤ) * t) (hB : ip2 = false → inpl = false ∨ pairs (some (⟨b, s, t⟩ :: l)) = 0) :
    HOK h sz (some (⟨a + b, s, t⟩ :: l)) inpl nd
      (fun I O st => g (I + (a : ℤ) * s) (O + (a : ℤ) * t) (f I O st)) := by
  have := HOK_pieces (h := h) (sz := sz) (inpl := inpl) (nd := nd) (m := 2)
    (voff := fun i => if i = 0 then (0, 0) else ((a : ℤ) * s, (a : ℤ) * t))
    (vecs := fun i => if i = 0 then some (⟨a, s, t⟩ :: l) else some (⟨b, s, t⟩ :: l)) (vec := some (⟨a + b, s, t⟩ :: l))
    (ip := fun i => if i = 0 then inpl else ip2) (f := fun i => if i = 0 then f else g) ?_ ?_ ?_ ?_
  · refine this.congr fun I O st => ?_
    simp
  · rw [pairs_concat]
    rw [show (Multiset.range 2) = {0} + {1} from rfl, Multiset.add_bind]
    simp only [Multiset.singleton_bind, if_true, one_ne_zero, if_false]
    rw [show ((0, 0) : ℤ × ℤ) = 0 from rfl]; simp
  · intro i hi
    by_cases h : i = 0 <;> simp only [h, if_true, if_false] <;> assumption
  · intro i hi h
    by_cases h0 : i = 0
    · simp only [h0, if_true] at h ⊢; exact ⟨h, trivial⟩
    · simp only [h0, if_false] at h ⊢; exact hA h
  · intro i hi h
    by_cases h0 : i = 0
    · simp only [h0, if_true] at h ⊢; exact Or.inl h
    · simp only [h0, if_false] at h ⊢; exact hB h

/-- `q` rounds of `nb` transforms, then the remaining `r` -/
theorem HOK_chunks {h : Half} {sz : List (Dim × Unit)} {inpl ip2 nd : Bool} {f g : Ptr → Ptr → State → State} {q nb r : ℕ} {ivs ovs : ℤ}
    (hp : HOK h sz (some [⟨nb, ivs, ovs⟩]) inpl nd f) (hg : HOK h sz (some [⟨r, ivs, ovs⟩]) ip2 nd g)
    (hpl : inpl = true → ivs = ovs)
    (hA : ip2 = true → inpl = true) (hB : ip2 = false → inpl = false ∨ r = 0) :
    HOK h sz (some [⟨q * nb + r, ivs, ovs⟩]) inpl nd (fun I O st =>
      g (I + ((q * nb : ℕ) : ℤ) * ivs) (O + ((q * nb : ℕ) : ℤ) * ovs)
        (forN q (fun i => f (I + (i : ℤ) * ((nb : ℤ) * ivs)) (O + (i : ℤ) * ((nb : ℤ) * ovs))) st)) := by
  have hz : ∀ s t : ℤ, pairs (some [(⟨0, s, t⟩ : Dim)]) = 0 := by intro s t; rw [pairs_cons]; simp
  have loop := HOK_loop (d := ⟨q, (nb : ℤ) * ivs, (nb : ℤ) * ovs⟩) hp (fun h => by simp only [hpl h])
  have loop' := loop.vec_congr (vec := some [⟨q * nb, ivs, ovs⟩])
    (pairs_merge ⟨q, (nb : ℤ) * ivs, (nb : ℤ) * ovs⟩ ⟨nb, ivs, ovs⟩ [] (by simp only []; ring) (by simp only []; ring)).symm
  exact HOK_concat loop' hg (fun h => ⟨hA h, by rw [hpl (hA h)]⟩)
    (fun h => (hB h).imp_right fun h => by rw [h]; exact hz _ _)

end FFTW.Spec
