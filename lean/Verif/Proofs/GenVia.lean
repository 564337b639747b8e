import Verif.Proofs.GenSeq

/-! generic contract lemma: copy with one set of output strides, then transform in place from there to the final strides -/

namespace FFTW.Spec
open FFTW.Tensor
variable {V τ : Type} [CommRing V] [Elt V] {K : τ → ℕ → ℕ → ℕ → V}

/-- reading strides `(n, is, mid)` of a dimension `(n, is, os)` with intermediate stride `mid` -/
def toMid (e : Dim × ℤ) : Dim := ⟨e.1.n, e.1.is, e.2⟩
/-- `(n, mid, os)` -/
def fromMid (e : Dim × ℤ) : Dim := ⟨e.1.n, e.2, e.1.os⟩

theorem GOK.sz_perm {sz sz' : List (Dim × τ)} {vec : Tensor} {δi δo : ℤ} {inpl nd : Bool} {f : Ptr → Ptr → State → State}
    (h : GOK K sz' vec δi δo inpl nd f) (hp : sz.Perm sz') : GOK K sz vec δi δo inpl nd f := by
  refine h.transfer rfl (pairs_perm (hp.map _)) fun dk hdk => ?_
  obtain ⟨dk', p, i⟩ := hdk.perm hp
  exact ⟨dk', i, (gOut_perm p).symm, fun x => (gSum_perm p x).symm⟩

theorem gSum_mid {dk : List (((Dim × τ) × ℤ) × ℕ)} : ∀ {x y : ℤ → V},
    (∀ p ∈ offs (dk.map fun e => (e.1.1.1.n, ((e.1.1.1.is, e.1.2) : ℤ × ℤ))), y p.2 = x p.1) →
    gSum K (dk.map fun e => ((fromMid (e.1.1.1, e.1.2), e.1.1.2), e.2)) y = gSum K (dk.map fun e => (e.1.1, e.2)) x := by
  induction dk with
  | nil => intro x y h; exact h (0, 0) (by simp [offs])
  | cons e dk ih =>
    intro x y h
    obtain ⟨⟨⟨d, t⟩, m⟩, k⟩ := e
    simp only [List.map_cons, gSum, fromMid]
    refine Finset.sum_congr rfl fun j hj => ?_
    congr 1
    apply ih
    intro p hp
    apply h (j * d.is + p.1, j * m + p.2)
    simp only [List.map_cons, offs, Multiset.mem_bind, Multiset.mem_map, Multiset.mem_range]
    exact ⟨j, Finset.mem_range.1 hj, p, hp, by ext <;> simp⟩

theorem GIdx.lift {szm : List ((Dim × τ) × ℤ)} {dk : List ((Dim × τ) × ℕ)} (h : GIdx (szm.map Prod.fst) dk) :
    ∃ dkm : List (((Dim × τ) × ℤ) × ℕ), dkm.map Prod.fst = szm ∧ (dkm.map fun e => (e.1.1, e.2)) = dk := by
  have h1 := h.1
  clear h
  induction szm generalizing dk with
  | nil =>
    have : dk = [] := by simpa using h1
    exact ⟨[], rfl, by simp [this]⟩
  | cons a szm ih =>
    cases dk with
    | nil => simp at h1
    | cons e dk =>
      simp only [List.map_cons, List.cons.injEq] at h1
      obtain ⟨dkm, e1, e2⟩ := ih h1.2
      exact ⟨(a, e.2) :: dkm, by simp [e1], by simp [e2, ← h1.1]⟩

theorem ins_map (l : List (Dim × ℤ)) : ins (some (l.map Prod.fst)) = ins (some (l.map toMid)) := by
  simp [ins, List.map_map, Function.comp_def, toMid]
theorem outs_toMid (l : List (Dim × ℤ)) : outs (some (l.map toMid)) = ins (some (l.map fromMid)) := by
  simp [ins, outs, List.map_map, Function.comp_def, toMid, fromMid]
theorem outs_map (l : List (Dim × ℤ)) : outs (some (l.map Prod.fst)) = outs (some (l.map fromMid)) := by
  simp [outs, List.map_map, Function.comp_def, fromMid]

/-- **Via.** copy `(is → mid)`, then transform in place `(mid → os)` -/
theorem GOK_via {szm : List ((Dim × τ) × ℤ)} {vm : List (Dim × ℤ)} {δi δo : ℤ} {inpl nd nd2 : Bool} {f1 f2 : Ptr → Ptr → State → State}
    (h1 : GOK K [] (some (vm.map toMid ++ szm.map fun e => toMid (e.1.1, e.2))) δi δo inpl nd f1)
    (h2 : GOK K (szm.map fun e => (fromMid (e.1.1, e.2), e.1.2)) (some (vm.map fromMid)) δo δo true nd2 f2)
    (hin : ins (locT V δo δo (szm.map fun e => (fromMid (e.1.1, e.2), e.1.2)) (some (vm.map fromMid))) =
      outs (locT V δo δo (szm.map fun e => (fromMid (e.1.1, e.2), e.1.2)) (some (vm.map fromMid)))) :
    GOK K (szm.map Prod.fst) (some (vm.map Prod.fst)) δi δo inpl nd (fun I O st => f2 O O (f1 I O st)) := by
  intro wf I O st hc
  set all := szm.map (fun e => (e.1.1, e.2)) ++ vm with hall
  set T := locT V δi δo (szm.map Prod.fst) (some (vm.map Prod.fst)) with hT
  set T1 := locT V δi δo ([] : List (Dim × τ)) (some (vm.map toMid ++ szm.map fun e => toMid (e.1.1, e.2))) with hT1
  set T2 := locT V δo δo (szm.map fun e => (fromMid (e.1.1, e.2), e.1.2)) (some (vm.map fromMid)) with hT2
  have hTe : T = some (⟨Elt.nc V, δi, δo⟩ :: all.map Prod.fst) := by
    rw [hT, locT_some, hall]; simp [List.map_map, Function.comp_def]
  have hT2e : T2 = some (⟨Elt.nc V, δo, δo⟩ :: all.map fromMid) := by
    rw [hT2, locT_some, hall]; simp [List.map_map, Function.comp_def]
  have hT1e : pairs T1 = pairs (some (⟨Elt.nc V, δi, δo⟩ :: all.map toMid)) := by
    rw [hT1, locT_some, hall]
    apply pairs_perm
    apply List.Perm.cons
    simp only [List.map_nil, List.nil_append, List.map_append, List.map_map, Function.comp_def]
    exact List.perm_append_comm
  have hI1 : ins T1 = ins T := by
    rw [ins_eq, hT1e, ← ins_eq, hTe]
    simp only [ins, List.map_cons, offs]
    have := ins_map all
    simp only [ins] at this
    rw [this]
  have hO1 : outs T1 = ins T2 := by
    rw [outs_eq, hT1e, ← outs_eq, hT2e]
    simp only [ins, outs, List.map_cons, offs]
    have := outs_toMid all
    simp only [ins, outs] at this
    rw [this]
  have hO2 : outs T2 = outs T := by
    rw [hT2e, hTe]
    simp only [outs, List.map_cons, offs]
    have := outs_map all
    simp only [outs] at this
    rw [this]
  have hO1' : outs T1 = outs T := by rw [hO1, hin, hO2]
  have wf1 : WF V ([] : List (Dim × τ)) (some (vm.map toMid ++ szm.map fun e => toMid (e.1.1, e.2))) δi δo inpl nd :=
    ⟨by rw [← hT1, hO1']; exact wf.out, fun h => by rw [← hT1, hI1]; exact wf.inp h, fun h => by rw [← hT1, hI1, hO1']; exact wf.eq h, wf.delta⟩
  have hc1 : Compat T1 inpl I O st := ⟨hc.blkI, hc.blkO, hc.same, fun h => by rw [hI1, hO1']; exact hc.disj h⟩
  obtain ⟨fr1, v1⟩ := h1 wf1 I O st hc1
  set st1 := f1 I O st with hst1
  have wf2 : WF V (szm.map fun e => (fromMid (e.1.1, e.2), e.1.2)) (some (vm.map fromMid)) δo δo true nd2 :=
    ⟨by rw [← hT2, hO2]; exact wf.out, fun h => by rw [← hT2, hin, hO2]; exact wf.out, fun _ => hin, fun _ => rfl⟩
  have hc2 : Compat T2 true O O st1 := ⟨lt_of_lt_of_le hc.blkO fr1.next, lt_of_lt_of_le hc.blkO fr1.next, fun _ => rfl, fun h => by simp at h⟩
  obtain ⟨fr2, v2⟩ := h2 wf2 O O st1 hc2
  refine ⟨fr1.trans fr2 ?_ ?_, ?_⟩
  · rintro q _ h
    have h : Writable T1 nd I O q := h
    simpa only [Writable, hI1, hO1'] using h
  · rintro q _ (h | ⟨_, h⟩)
    · have h : ∃ b ∈ outs T2, q = O + b := h
      rw [hO2] at h; exact Or.inl h
    · have h : ∃ b ∈ ins T2, q = O + b := h
      rw [hin, hO2] at h; exact Or.inl h
  · intro dk hdk ab hab
    obtain ⟨dkm, e1, e2⟩ := hdk.lift
    have hab2 : ∃ c, (ab.1, c) ∈ pairs (some (vm.map toMid)) ∧ (c, ab.2) ∈ pairs (some (vm.map fromMid)) := by
      clear v1 v2 fr1 fr2 wf wf1 wf2 hc hc1 hc2 hTe hT1e hT2e hI1 hO1 hO1' hO2 hin h1 h2 e2 e1 dkm hst1 st1
      clear T T1 T2 hT hT1 hT2 all hall
      induction vm generalizing ab with
      | nil => simp [pairs, offs] at hab ⊢; simp [hab]
      | cons a vm ih =>
        rw [List.map_cons, mem_pairs_cons] at hab
        obtain ⟨j, hj, q, hq, rfl⟩ := hab
        obtain ⟨c, c1, c2⟩ := ih q hq
        refine ⟨j * a.2 + c, ?_, ?_⟩
        · rw [List.map_cons, mem_pairs_cons]; exact ⟨j, hj, _, c1, rfl⟩
        · rw [List.map_cons, mem_pairs_cons]; exact ⟨j, hj, _, c2, rfl⟩
    obtain ⟨c, c1, c2⟩ := hab2
    have hg : GIdx (szm.map fun e => (fromMid (e.1.1, e.2), e.1.2)) (dkm.map fun e => ((fromMid (e.1.1.1, e.1.2), e.1.1.2), e.2)) := by
      refine ⟨by rw [← e1]; simp [List.map_map, Function.comp_def], ?_⟩
      intro e he
      obtain ⟨e', he', rfl⟩ := List.mem_map.1 he
      have := hdk.2 (e'.1.1, e'.2) (by rw [← e2]; exact List.mem_map.2 ⟨e', he', rfl⟩)
      exact this
    have h3 := v2 _ hg (c, ab.2) c2
    have hout : gOut (dkm.map fun e => ((fromMid (e.1.1.1, e.1.2), e.1.1.2), e.2)) = gOut dk := by
      rw [← e2]; simp [gOut, List.map_map, Function.comp_def, fromMid]
    rw [hout] at h3
    rw [h3, ← e2]
    apply gSum_mid
    intro p hp
    have hp' : p ∈ pairs (some (szm.map fun e => toMid (e.1.1, e.2))) := by
      rw [← e1, pairs, List.map_map, List.map_map]
      exact hp
    have h4 := v1 [] ⟨rfl, by simp⟩ ((ab.1, c) + p) (mem_pairs_append.2 ⟨_, c1, p, hp', rfl⟩)
    simp only [gOut_nil, gSum, zero_add] at h4
    rw [show p.2 + c = ((ab.1, c) + p).2 by simp; ring, h4]
    congr 1; simp; ring

end FFTW.Spec
