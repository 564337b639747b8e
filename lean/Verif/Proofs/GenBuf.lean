import Verif.Proofs.GenVia

/-! # Plans that go through a buffer -/

namespace FFTW.Spec
open FFTW.Tensor

variable {V τ : Type} [CommRing V] [Elt V] {K : τ → ℕ → ℕ → ℕ → V}

theorem withBuf_next (f : Ptr → State → State) (st : State) : (withBuf f st).next = st.next := rfl
theorem withBuf_mem (f : Ptr → State → State) (st : State) : (withBuf f st).mem = (f st.fresh st.malloc).mem := rfl

/-- vector offsets through the middle -/
theorem pairs_mid {vm : List (Dim × ℤ)} {ab : ℤ × ℤ} (hab : ab ∈ pairs (some (vm.map Prod.fst))) :
    ∃ c, (ab.1, c) ∈ pairs (some (vm.map toMid)) ∧ (c, ab.2) ∈ pairs (some (vm.map fromMid)) := by
  induction vm generalizing ab with
  | nil => simp [pairs, offs] at hab ⊢; simp [hab]
  | cons a vm ih =>
    rw [List.map_cons, mem_pairs_cons] at hab
    obtain ⟨j, hj, q, hq, rfl⟩ := hab
    obtain ⟨c, c1, c2⟩ := ih hq
    refine ⟨j * a.2 + c, ?_, ?_⟩
    · rw [List.map_cons, mem_pairs_cons]; exact ⟨j, hj, _, c1, rfl⟩
    · rw [List.map_cons, mem_pairs_cons]; exact ⟨j, hj, _, c2, rfl⟩

section
variable {szm : List ((Dim × τ) × ℤ)} {vm : List (Dim × ℤ)} {δi δb δo : ℤ}

theorem mid_ins (l : List (Dim × τ)) (hl : l = szm.map fun e => (toMid (e.1.1, e.2), e.1.2)) :
    ins (locT V δi δb l (some (vm.map toMid))) = ins (locT V δi δo (szm.map Prod.fst) (some (vm.map Prod.fst))) := by
  subst hl
  rw [locT_some, locT_some]
  simp only [ins, List.map_cons, List.map_append, List.map_map, Function.comp_def, toMid]

theorem mid_outs : outs (locT V δb δo (szm.map fun e => (fromMid (e.1.1, e.2), e.1.2)) (some (vm.map fromMid))) =
    outs (locT V δi δo (szm.map Prod.fst) (some (vm.map Prod.fst))) := by
  rw [locT_some, locT_some]
  simp only [outs, List.map_cons, List.map_append, List.map_map, Function.comp_def, fromMid]

theorem mid_mid : outs (locT V δi δb (szm.map fun e => (toMid (e.1.1, e.2), e.1.2)) (some (vm.map toMid))) =
    ins (locT V δb δo (szm.map fun e => (fromMid (e.1.1, e.2), e.1.2)) (some (vm.map fromMid))) := by
  rw [locT_some, locT_some]
  simp only [ins, outs, List.map_cons, List.map_append, List.map_map, Function.comp_def, fromMid, toMid]

/-- a copy has the locations of the transform -/
theorem pairs_copy (δ δ' : ℤ) (l : List (Dim × τ)) (v : List Dim) :
    pairs (locT V δ δ' ([] : List (Dim × τ)) (some (v ++ l.map Prod.fst))) = pairs (locT V δ δ' l (some v)) := by
  rw [locT_some, locT_some]
  apply pairs_perm
  apply List.Perm.cons
  simp only [List.map_nil, List.nil_append]
  exact List.perm_append_comm

end

/-- **Copy into a buffer, then transform** from the buffer to the output.  In place or not does not matter: the input has been read when
the output is written. -/
theorem GOK_bufIn {szm : List ((Dim × τ) × ℤ)} {vm : List (Dim × ℤ)} {δi δb δo e : ℤ} {inpl nd nd1 nd2 : Bool} {f1 f2 : Ptr → Ptr → State → State}
    (h1 : GOK K ([] : List (Dim × τ)) (some (vm.map toMid ++ (szm.map fun e => (toMid (e.1.1, e.2), e.1.2)).map Prod.fst)) δi δb false nd1 f1)
    (h2 : GOK K (szm.map fun e => (fromMid (e.1.1, e.2), e.1.2)) (some (vm.map fromMid)) δb δo false nd2 f2)
    (hB : (ins (locT V δb δo (szm.map fun e => (fromMid (e.1.1, e.2), e.1.2)) (some (vm.map fromMid)))).Nodup)
    (hnd : nd = true → nd1 = true ∨ inpl = true := by simp) :
    GOK K (szm.map Prod.fst) (some (vm.map Prod.fst)) δi δo inpl nd (fun I O => withBuf fun B st => f2 (B + e) O (f1 I (B + e) st)) := by
  intro wf I O st hc
  have hP := pairs_copy (V := V) δi δb (szm.map fun e => (toMid (e.1.1, e.2), e.1.2)) (vm.map toMid)
  have hI1 := congrArg (Multiset.map Prod.fst) hP
  have hO1 := congrArg (Multiset.map Prod.snd) hP
  rw [← ins_eq, ← ins_eq, mid_ins (δo := δo) _ rfl] at hI1
  rw [← outs_eq, ← outs_eq, mid_mid (δo := δo)] at hO1
  have hO2 := mid_outs (V := V) (szm := szm) (vm := vm) (δi := δi) (δb := δb) (δo := δo)
  set T := locT V δi δo (szm.map Prod.fst) (some (vm.map Prod.fst)) with hT
  set T1 := locT V δi δb ([] : List (Dim × τ)) (some (vm.map toMid ++ (szm.map fun e => (toMid (e.1.1, e.2), e.1.2)).map Prod.fst)) with hT1
  set T2 := locT V δb δo (szm.map fun e => (fromMid (e.1.1, e.2), e.1.2)) (some (vm.map fromMid)) with hT2
  set B : Ptr := st.fresh + e with hBd
  have hBb : B.blk = st.next := rfl
  have hInd : nd1 = false → (ins T).Nodup := by
    intro h
    cases hn : nd with
    | false => exact wf.inp hn
    | true =>
      rcases hnd hn with h' | h'
      · rw [h] at h'; simp at h'
      · rw [hT, wf.eq h']; exact wf.out
  have wf1 : WF V ([] : List (Dim × τ)) (some (vm.map toMid ++ (szm.map fun e => (toMid (e.1.1, e.2), e.1.2)).map Prod.fst)) δi δb false nd1 :=
    ⟨by rw [← hT1, hO1]; exact hB, fun h => by rw [← hT1, hI1]; exact hInd h, by simp, by simp⟩
  have ne : ∀ {p : Ptr} {a b : ℤ}, p.blk < st.next → p + a ≠ B + b := by
    intro p a b h he
    have := congrArg Ptr.blk he
    have h' : p.blk = B.blk := this
    omega
  have hc1 : Compat T1 false I B st.malloc :=
    ⟨by have := hc.blkI; show I.blk < st.next + 1; omega, by show st.next < st.next + 1; omega, by simp, fun _ a _ b _ => ne hc.blkI⟩
  obtain ⟨fr1, v1⟩ := h1 wf1 I B st.malloc hc1
  set st1 := f1 I B st.malloc with hst1
  have hn1 : st.next + 1 ≤ st1.next := fr1.next
  have wf2 : WF V (szm.map fun e => (fromMid (e.1.1, e.2), e.1.2)) (some (vm.map fromMid)) δb δo false nd2 :=
    ⟨by rw [← hT2, hO2]; exact wf.out, fun _ => hB, by simp, by simp⟩
  have hc2 : Compat T2 false B O st1 :=
    ⟨by rw [hBb]; omega, by have := hc.blkO; omega, by simp, fun _ a _ b _ => (ne hc.blkO).symm⟩
  obtain ⟨fr2, v2⟩ := h2 wf2 B O st1 hc2
  refine ⟨⟨le_refl _, ?_⟩, ?_⟩
  · intro q hq hw
    show (f2 B O st1).mem q = st.mem q
    rw [fr2.mem q (by omega), fr1.mem q (by show q.blk < st.next + 1; omega)]
    · rfl
    · rintro (⟨b, hb, rfl⟩ | ⟨h, a, ha, rfl⟩)
      · exact absurd hq (by show ¬ st.next < st.next; omega)
      · rw [← hT1, hI1] at ha
        cases hn : nd with
        | false => exact hw (Or.inr ⟨hn, a, ha, rfl⟩)
        | true =>
          rcases hnd hn with h' | h'
          · rw [h] at h'; simp at h'
          · exact hw (Or.inl ⟨a, wf.eq h' ▸ ha, by rw [hc.same h']⟩)
    · rintro (⟨b, hb, rfl⟩ | ⟨_, b, hb, rfl⟩)
      · rw [← hT2, hO2] at hb; exact hw (Or.inl ⟨b, hb, rfl⟩)
      · exact absurd hq (by show ¬ st.next < st.next; omega)
  · intro dk hdk ab hab
    show val (f2 B O st1).mem O δo (gOut dk + ab.2) = _
    obtain ⟨dkm, e1, e2⟩ := hdk.lift
    obtain ⟨c, c1, c2⟩ := pairs_mid hab
    have hg : GIdx (szm.map fun e => (fromMid (e.1.1, e.2), e.1.2)) (dkm.map fun e => ((fromMid (e.1.1.1, e.1.2), e.1.1.2), e.2)) := by
      refine ⟨by rw [← e1]; simp [List.map_map, Function.comp_def], ?_⟩
      intro e he
      obtain ⟨e', he', rfl⟩ := List.mem_map.1 he
      exact hdk.2 (e'.1.1, e'.2) (by rw [← e2]; exact List.mem_map.2 ⟨e', he', rfl⟩)
    have h3 := v2 _ hg (c, ab.2) c2
    have hout : gOut (dkm.map fun e => ((fromMid (e.1.1.1, e.1.2), e.1.1.2), e.2)) = gOut dk := by
      rw [← e2]; simp [gOut, List.map_map, Function.comp_def, fromMid]
    rw [hout] at h3
    rw [h3, ← e2]
    apply gSum_mid
    intro p hp
    have hp' : p ∈ pairs (some ((szm.map fun e => (toMid (e.1.1, e.2), e.1.2)).map Prod.fst)) := by
      rw [← e1, pairs, List.map_map, List.map_map, List.map_map]
      exact hp
    have h4 := v1 [] ⟨rfl, by simp⟩ ((ab.1, c) + p) (mem_pairs_append.2 ⟨_, c1, p, hp', rfl⟩)
    simp only [gOut_nil, gSum, zero_add] at h4
    rw [show p.2 + c = ((ab.1, c) + p).2 by simp; ring, h4]
    rw [show ((ab.1, c) + p).1 = p.1 + ab.1 by simp; ring]
    rfl

/-- **Transform into a buffer, then copy** from the buffer to the output -/
theorem GOK_bufOut {szm : List ((Dim × τ) × ℤ)} {vm : List (Dim × ℤ)} {δi δb δo e : ℤ} {inpl nd nd1 nd2 : Bool} {f1 f2 : Ptr → Ptr → State → State}
    (h1 : GOK K (szm.map fun e => (toMid (e.1.1, e.2), e.1.2)) (some (vm.map toMid)) δi δb false nd1 f1)
    (h2 : GOK K ([] : List (Dim × τ)) (some (vm.map fromMid ++ (szm.map fun e => (fromMid (e.1.1, e.2), e.1.2)).map Prod.fst)) δb δo false nd2 f2)
    (hB : (ins (locT V δb δo (szm.map fun e => (fromMid (e.1.1, e.2), e.1.2)) (some (vm.map fromMid)))).Nodup)
    (hnd : nd = true → nd1 = true ∨ inpl = true) :
    GOK K (szm.map Prod.fst) (some (vm.map Prod.fst)) δi δo inpl nd (fun I O => withBuf fun B st => f2 (B + e) O (f1 I (B + e) st)) := by
  intro wf I O st hc
  have hP := pairs_copy (V := V) δb δo (szm.map fun e => (fromMid (e.1.1, e.2), e.1.2)) (vm.map fromMid)
  have hI2 := congrArg (Multiset.map Prod.fst) hP
  have hO2 := congrArg (Multiset.map Prod.snd) hP
  rw [← ins_eq, ← ins_eq] at hI2
  rw [← outs_eq, ← outs_eq, mid_outs (δi := δi)] at hO2
  have hI1 := mid_ins (V := V) (szm := szm) (vm := vm) (δi := δi) (δb := δb) (δo := δo) _ rfl
  have hO1 := mid_mid (V := V) (szm := szm) (vm := vm) (δi := δi) (δb := δb) (δo := δo)
  set T := locT V δi δo (szm.map Prod.fst) (some (vm.map Prod.fst)) with hT
  set T1 := locT V δi δb (szm.map fun e => (toMid (e.1.1, e.2), e.1.2)) (some (vm.map toMid)) with hT1
  set T2 := locT V δb δo ([] : List (Dim × τ)) (some (vm.map fromMid ++ (szm.map fun e => (fromMid (e.1.1, e.2), e.1.2)).map Prod.fst)) with hT2
  set B : Ptr := st.fresh + e with hBd
  have hBb : B.blk = st.next := rfl
  have hInd : nd1 = false → (ins T).Nodup := by
    intro h
    cases hn : nd with
    | false => exact wf.inp hn
    | true =>
      rcases hnd hn with h' | h'
      · rw [h] at h'; simp at h'
      · rw [hT, wf.eq h']; exact wf.out
  have wf1 : WF V (szm.map fun e => (toMid (e.1.1, e.2), e.1.2)) (some (vm.map toMid)) δi δb false nd1 :=
    ⟨by rw [← hT1, hO1]; exact hB, fun h => by rw [← hT1, hI1]; exact hInd h, by simp, by simp⟩
  have ne : ∀ {p : Ptr} {a b : ℤ}, p.blk < st.next → p + a ≠ B + b := by
    intro p a b h he
    have := congrArg Ptr.blk he
    have h' : p.blk = B.blk := this
    omega
  have hc1 : Compat T1 false I B st.malloc :=
    ⟨by have := hc.blkI; show I.blk < st.next + 1; omega, by show st.next < st.next + 1; omega, by simp, fun _ a _ b _ => ne hc.blkI⟩
  obtain ⟨fr1, v1⟩ := h1 wf1 I B st.malloc hc1
  set st1 := f1 I B st.malloc with hst1
  have hn1 : st.next + 1 ≤ st1.next := fr1.next
  have wf2 : WF V ([] : List (Dim × τ)) (some (vm.map fromMid ++ (szm.map fun e => (fromMid (e.1.1, e.2), e.1.2)).map Prod.fst)) δb δo false nd2 :=
    ⟨by rw [← hT2, hO2]; exact wf.out, fun _ => by rw [← hT2, hI2]; exact hB, by simp, by simp⟩
  have hc2 : Compat T2 false B O st1 :=
    ⟨by rw [hBb]; omega, by have := hc.blkO; omega, by simp, fun _ a _ b _ => (ne hc.blkO).symm⟩
  obtain ⟨fr2, v2⟩ := h2 wf2 B O st1 hc2
  refine ⟨⟨le_refl _, ?_⟩, ?_⟩
  · intro q hq hw
    show (f2 B O st1).mem q = st.mem q
    rw [fr2.mem q (by omega), fr1.mem q (by show q.blk < st.next + 1; omega)]
    · rfl
    · rintro (⟨b, hb, rfl⟩ | ⟨h, a, ha, rfl⟩)
      · exact absurd hq (by show ¬ st.next < st.next; omega)
      · rw [← hT1, hI1] at ha
        cases hn : nd with
        | false => exact hw (Or.inr ⟨hn, a, ha, rfl⟩)
        | true =>
          rcases hnd hn with h' | h'
          · rw [h] at h'; simp at h'
          · exact hw (Or.inl ⟨a, wf.eq h' ▸ ha, by rw [hc.same h']⟩)
    · rintro (⟨b, hb, rfl⟩ | ⟨_, b, hb, rfl⟩)
      · rw [← hT2, hO2] at hb; exact hw (Or.inl ⟨b, hb, rfl⟩)
      · exact absurd hq (by show ¬ st.next < st.next; omega)
  · intro dk hdk ab hab
    show val (f2 B O st1).mem O δo (gOut dk + ab.2) = _
    obtain ⟨dkm, e1, e2⟩ := hdk.lift
    obtain ⟨c, c1, c2⟩ := pairs_mid hab
    have hg : GIdx (szm.map fun e => (toMid (e.1.1, e.2), e.1.2)) (dkm.map fun e => ((toMid (e.1.1.1, e.1.2), e.1.1.2), e.2)) := by
      refine ⟨by rw [← e1]; simp [List.map_map, Function.comp_def], ?_⟩
      intro e he
      obtain ⟨e', he', rfl⟩ := List.mem_map.1 he
      exact hdk.2 (e'.1.1, e'.2) (by rw [← e2]; exact List.mem_map.2 ⟨e', he', rfl⟩)
    have h3 := v1 _ hg (ab.1, c) c1
    -- where the result sits in the buffer
    have hmid : (gOut (dkm.map fun e => ((toMid (e.1.1.1, e.1.2), e.1.1.2), e.2)), gOut dk) ∈
        pairs (some ((szm.map fun e => (fromMid (e.1.1, e.2), e.1.2)).map Prod.fst)) := by
      have hd : ∀ e ∈ dkm, e.2 < e.1.1.1.n := by
        intro e he
        exact hdk.2 (e.1.1, e.2) (by rw [← e2]; exact List.mem_map.2 ⟨e, he, rfl⟩)
      rw [← e2, ← e1]
      clear h3 hg e1 e2 c1 c2 hab hdk v1 v2
      induction dkm with
      | nil => simp [pairs, offs, gOut]
      | cons x l ih =>
        simp only [List.map_cons]
        rw [mem_pairs_cons]
        refine ⟨x.2, hd x (by simp), _, ih fun e he => hd e (by simp [he]), ?_⟩
        rw [gOut_cons, gOut_cons]
        simp [toMid, fromMid]
    have h4 := v2 [] ⟨rfl, by simp⟩ ((c, ab.2) + _) (mem_pairs_append.2 ⟨_, c2, _, hmid, rfl⟩)
    simp only [gOut_nil, gSum, zero_add] at h4
    rw [show gOut dk + ab.2 = ((c, ab.2) + (gOut (dkm.map fun e => ((toMid (e.1.1.1, e.1.2), e.1.1.2), e.2)), gOut dk)).2 by simp; ring, h4]
    rw [show ((c, ab.2) + (gOut (dkm.map fun e => ((toMid (e.1.1.1, e.1.2), e.1.1.2), e.2)), gOut dk)).1 =
      gOut (dkm.map fun e => ((toMid (e.1.1.1, e.1.2), e.1.1.2), e.2)) + c by simp; ring, h3, ← e2]
    have hsum : ∀ (l : List (((Dim × τ) × ℤ) × ℕ)) (x : ℤ → V),
        gSum K (l.map fun e => ((toMid (e.1.1.1, e.1.2), e.1.1.2), e.2)) x = gSum K (l.map fun e => (e.1.1, e.2)) x := by
      intro l
      induction l with
      | nil => intro x; rfl
      | cons e l ih => intro x; simp only [List.map_cons, gSum, ih]; rfl
    rw [hsum]
    rfl

end FFTW.Spec
