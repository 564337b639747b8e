import Verif.Proofs.GenLoop

/-! generic contract lemmas: splitting the transform dimensions, copy + in-place, no-ops -/

namespace FFTW.Spec
open FFTW.Tensor
variable {V τ : Type} [CommRing V] [Elt V] {K : τ → ℕ → ℕ → ℕ → V}

/-- `X(tensor_copy_inplace)` on a tagged list -/
def inpl1 (k : InplaceKind) (e : Dim × τ) : Dim × τ := (e.1.inplace k, e.2)

@[simp] theorem inplace_n (k : InplaceKind) (d : Dim) : (d.inplace k).n = d.n := by cases k <;> rfl

theorem map_fst_inpl1 (k : InplaceKind) (sz : List (Dim × τ)) : (sz.map (inpl1 k)).map Prod.fst = (sz.map Prod.fst).map (Dim.inplace k) := by
  simp [List.map_map, Function.comp_def, inpl1]

theorem copyInplace_append (k : InplaceKind) (a b : Tensor) : copyInplace k (append a b) = append (copyInplace k a) (copyInplace k b) := by
  cases a <;> cases b <;> simp [copyInplace, append]

theorem locT_inplace_OS (δi δo : ℤ) (sz : List (Dim × τ)) (vec : Tensor) :
    locT V δo δo (sz.map (inpl1 .OS)) (copyInplace .OS vec) = copyInplace .OS (locT V δi δo sz vec) := by
  unfold locT
  rw [copyInplace_append, map_fst_inpl1]; rfl
theorem locT_inplace_IS (δi δo : ℤ) (sz : List (Dim × τ)) (vec : Tensor) :
    locT V δi δi (sz.map (inpl1 .IS)) (copyInplace .IS vec) = copyInplace .IS (locT V δi δo sz vec) := by
  unfold locT
  rw [copyInplace_append, map_fst_inpl1]; rfl

theorem ins_inplace_OS (t : Tensor) : ins (copyInplace .OS t) = outs t := by
  rw [ins_eq, pairs_copyInplace_OS, Multiset.map_map]; simp
theorem outs_inplace_OS (t : Tensor) : outs (copyInplace .OS t) = outs t := by
  rw [outs_eq, pairs_copyInplace_OS, Multiset.map_map]; simp
theorem ins_inplace_IS (t : Tensor) : ins (copyInplace .IS t) = ins t := by
  rw [ins_eq, pairs_copyInplace_IS, Multiset.map_map]; simp
theorem outs_inplace_IS (t : Tensor) : outs (copyInplace .IS t) = ins t := by
  rw [outs_eq, pairs_copyInplace_IS, Multiset.map_map]; simp

/-- moving transform dimensions to the vector part does not change the locations -/
theorem pairs_locT_move (δi δo : ℤ) (sz1 sz2 : List (Dim × τ)) (vec : Tensor) :
    pairs (locT V δi δo sz2 (append vec (some (sz1.map Prod.fst)))) = pairs (locT V δi δo (sz1 ++ sz2) vec) := by
  cases vec with
  | none => rfl
  | some l =>
    rw [append, locT_some, locT_some]
    apply pairs_perm
    apply List.Perm.cons
    rw [List.map_append]
    calc sz2.map Prod.fst ++ (l ++ sz1.map Prod.fst)
        |>.Perm ((l ++ sz1.map Prod.fst) ++ sz2.map Prod.fst) := List.perm_append_comm
      _ |>.Perm (l ++ (sz1.map Prod.fst ++ sz2.map Prod.fst)) := by rw [List.append_assoc]
      _ |>.Perm ((sz1.map Prod.fst ++ sz2.map Prod.fst) ++ l) := List.perm_append_comm

theorem GIdx.split {sz1 sz2 : List (Dim × τ)} {dk : List ((Dim × τ) × ℕ)} (h : GIdx (sz1 ++ sz2) dk) :
    ∃ dk1 dk2, dk = dk1 ++ dk2 ∧ GIdx sz1 dk1 ∧ GIdx sz2 dk2 := by
  obtain ⟨h1, h2⟩ := h
  obtain ⟨a, b, rfl, ha, hb⟩ := List.map_eq_append_iff.1 h1
  exact ⟨a, b, rfl, ⟨ha, fun e he => h2 e (by simp [he])⟩, ⟨hb, fun e he => h2 e (by simp [he])⟩⟩

theorem GIdx.inplace {sz : List (Dim × τ)} {dk : List ((Dim × τ) × ℕ)} (k : InplaceKind) (h : GIdx sz dk) :
    GIdx (sz.map (inpl1 k)) (dk.map fun e => (inpl1 k e.1, e.2)) := by
  obtain ⟨rfl, h2⟩ := h
  refine ⟨by simp [List.map_map, Function.comp_def], ?_⟩
  intro e he
  obtain ⟨e', he', rfl⟩ := List.mem_map.1 he
  simpa [inpl1] using h2 e' he'

theorem gOut_inplace_OS (dk : List ((Dim × τ) × ℕ)) : gOut (dk.map fun e => (inpl1 .OS e.1, e.2)) = gOut dk := by
  simp [gOut, List.map_map, Function.comp_def, inpl1, Dim.inplace]

theorem pairs_append_mem {vec : Tensor} {l : List Dim} {p : ℤ × ℤ} :
    p ∈ pairs (append vec (some l)) ↔ ∃ x ∈ pairs vec, ∃ y ∈ pairs (some l), p = x + y := by
  cases vec with
  | none => simp [append, pairs]
  | some l' => rw [append]; exact mem_pairs_append

/-- **Split.** (rank-geq2.c; with `sz2 = []`: indirect.c, copy first) the transforms of `sz2`, then those of `sz1` in place -/
theorem GOK_split {sz1 sz2 : List (Dim × τ)} {vec : Tensor} {δi δo : ℤ} {inpl nd nd2 : Bool} {f1 f2 : Ptr → Ptr → State → State}
    (h1 : GOK K sz2 (append vec (some (sz1.map Prod.fst))) δi δo inpl nd f1)
    (h2 : GOK K (sz1.map (inpl1 .OS)) (append (copyInplace .OS vec) (some ((sz2.map Prod.fst).map (Dim.inplace .OS)))) δo δo true nd2 f2) :
    GOK K (sz1 ++ sz2) vec δi δo inpl nd (fun I O st => f2 O O (f1 I O st)) := by
  intro wf I O st hc
  have hT := pairs_locT_move (V := V) δi δo sz1 sz2 vec
  have hI := congrArg (Multiset.map Prod.fst) hT
  have hO := congrArg (Multiset.map Prod.snd) hT
  rw [← ins_eq, ← ins_eq] at hI
  rw [← outs_eq, ← outs_eq] at hO
  set T := locT V δi δo (sz1 ++ sz2) vec with hTdef
  set T1 := locT V δi δo sz2 (append vec (some (sz1.map Prod.fst))) with hT1
  have wf1 : WF V sz2 (append vec (some (sz1.map Prod.fst))) δi δo inpl nd :=
    ⟨by rw [← hT1, hO]; exact wf.out, fun h => by rw [← hT1, hI]; exact wf.inp h, fun h => by rw [← hT1, hI, hO]; exact wf.eq h, wf.delta⟩
  have hc1 : Compat T1 inpl I O st := ⟨hc.blkI, hc.blkO, hc.same, fun h => by rw [hI, hO]; exact hc.disj h⟩
  obtain ⟨fr1, v1⟩ := h1 wf1 I O st hc1
  set st1 := f1 I O st with hst1
  -- the in-place child touches exactly the output locations
  have hperm : pairs (locT V δo δo (sz1.map (inpl1 .OS)) (append (copyInplace .OS vec) (some ((sz2.map Prod.fst).map (Dim.inplace .OS))))) =
      pairs (copyInplace .OS T) := by
    have e := pairs_locT_move (V := V) δo δo (sz2.map (inpl1 .OS)) (sz1.map (inpl1 .OS)) (copyInplace .OS vec)
    rw [map_fst_inpl1] at e
    rw [e, ← List.map_append, locT_inplace_OS δi, pairs_copyInplace_OS, pairs_copyInplace_OS]
    congr 1
    rw [outs_eq, outs_eq, hTdef]
    congr 1
    rw [pairs_locT, pairs_locT]
    have : pairs (some ((sz2 ++ sz1).map Prod.fst)) = pairs (some ((sz1 ++ sz2).map Prod.fst)) := by
      apply pairs_perm; rw [List.map_append, List.map_append]; exact List.perm_append_comm
    rw [this]
  set T2 := locT V δo δo (sz1.map (inpl1 .OS)) (append (copyInplace .OS vec) (some ((sz2.map Prod.fst).map (Dim.inplace .OS)))) with hT2
  have hI2 : ins T2 = outs T := by rw [ins_eq, hperm, ← ins_eq, ins_inplace_OS]
  have hO2 : outs T2 = outs T := by rw [outs_eq, hperm, ← outs_eq, outs_inplace_OS]
  have wf2 : WF V (sz1.map (inpl1 .OS)) (append (copyInplace .OS vec) (some ((sz2.map Prod.fst).map (Dim.inplace .OS)))) δo δo true nd2 :=
    ⟨by rw [← hT2, hO2]; exact wf.out, fun h => by rw [← hT2, hI2]; exact wf.out, fun h => by rw [← hT2, hI2, hO2], fun _ => rfl⟩
  have hc2 : Compat T2 true O O st1 := ⟨lt_of_lt_of_le hc.blkO fr1.next, lt_of_lt_of_le hc.blkO fr1.next, fun _ => rfl, fun h => by simp at h⟩
  obtain ⟨fr2, v2⟩ := h2 wf2 O O st1 hc2
  refine ⟨fr1.trans fr2 ?_ ?_, ?_⟩
  · rintro q _ h
    have h : Writable T1 nd I O q := h
    simpa only [Writable, hI, hO] using h
  · rintro q _ (h | ⟨_, h⟩)
    · rw [hO2] at h; exact Or.inl h
    · rw [hI2] at h; exact Or.inl h
  · intro dk hdk ab hab
    obtain ⟨dk1, dk2, rfl, hd1, hd2⟩ := hdk.split
    have := v2 _ (hd1.inplace .OS) (ab.2 + gOut dk2, ab.2 + gOut dk2) ?_
    · rw [gOut_inplace_OS] at this
      rw [gOut_append, show gOut dk1 + gOut dk2 + ab.2 = gOut dk1 + (ab.2 + gOut dk2) by ring, this, gSum_append]
      apply gSum_restride (K := K) (dk := dk1) (Dim.inplace .OS) (fun d => by simp)
      intro p hp
      have hp' : p ∈ pairs (some (sz1.map Prod.fst)) := by
        rw [← hd1.1]
        rw [pairs, List.map_map, List.map_map]
        exact hp
      have h3 := v1 dk2 hd2 (ab + p) (pairs_append_mem.2 ⟨ab, hab, p, hp', rfl⟩)
      rw [show p.2 + (ab.2 + gOut dk2) = gOut dk2 + (ab + p).2 by simp; ring, h3]
      congr 1; funext o
      congr 1; simp; ring
    · rw [pairs_append_mem]
      obtain ⟨a2, ha2⟩ := gOut_mem hd2
      refine ⟨(ab.2, ab.2), ?_, (gOut dk2, gOut dk2), ?_, rfl⟩
      · rw [pairs_copyInplace_OS, Multiset.mem_map]
        exact ⟨ab.2, mem_outs.2 ⟨ab.1, hab⟩, rfl⟩
      · have := pairs_copyInplace_OS (some (sz2.map Prod.fst))
        simp only [copyInplace, Option.map_some] at this
        rw [this, Multiset.mem_map]
        exact ⟨gOut dk2, mem_outs.2 ⟨a2, ha2⟩, rfl⟩

/-- **Copy last.** (indirect.c) transform in place in the input, then copy to the output -/
theorem GOK_copyLast {sz : List (Dim × τ)} {vec : Tensor} {δi δo : ℤ} {inpl nd nd1 nd2 : Bool} {f1 f2 : Ptr → Ptr → State → State}
    (h1 : GOK K (sz.map (inpl1 .IS)) (copyInplace .IS vec) δi δi true nd1 f1)
    (h2 : GOK K [] (append vec (some (sz.map Prod.fst))) δi δo inpl nd2 f2)
    (hnd : nd = false ∨ inpl = true) (hnd2 : nd = true → nd2 = true ∨ inpl = true) :
    GOK K sz vec δi δo inpl nd (fun I O st => f2 I O (f1 I I st)) := by
  intro wf I O st hc
  have hT := pairs_locT_move (V := V) δi δo sz [] vec
  rw [List.append_nil] at hT
  have hI := congrArg (Multiset.map Prod.fst) hT
  have hO := congrArg (Multiset.map Prod.snd) hT
  rw [← ins_eq, ← ins_eq] at hI
  rw [← outs_eq, ← outs_eq] at hO
  have hLI := locT_inplace_IS (V := V) δi δo sz vec
  set T := locT V δi δo sz vec with hTdef
  set T2 := locT V δi δo ([] : List (Dim × τ)) (append vec (some (sz.map Prod.fst))) with hT2
  have hInd : (ins T).Nodup := by
    rcases hnd with h | h
    · exact wf.inp h
    · rw [wf.eq h]; exact wf.out
  have wf1 : WF V (sz.map (inpl1 .IS)) (copyInplace .IS vec) δi δi true nd1 := by
    refine ⟨?_, fun _ => ?_, fun _ => ?_, fun _ => rfl⟩
    · rw [hLI, outs_inplace_IS]; exact hInd
    · rw [hLI, ins_inplace_IS]; exact hInd
    · rw [hLI, ins_inplace_IS, outs_inplace_IS]
  have hc1 : Compat (locT V δi δi (sz.map (inpl1 .IS)) (copyInplace .IS vec)) true I I st :=
    ⟨hc.blkI, hc.blkI, fun _ => rfl, fun h => by simp at h⟩
  obtain ⟨fr1, v1⟩ := h1 wf1 I I st hc1
  rw [hLI] at fr1
  set st1 := f1 I I st with hst1
  have wf2 : WF V ([] : List (Dim × τ)) (append vec (some (sz.map Prod.fst))) δi δo inpl nd2 :=
    ⟨by rw [← hT2, hO]; exact wf.out, fun h => by rw [← hT2, hI]; exact hInd, fun h => by rw [← hT2, hI, hO]; exact wf.eq h, wf.delta⟩
  have hc2 : Compat T2 inpl I O st1 :=
    ⟨lt_of_lt_of_le hc.blkI fr1.next, lt_of_lt_of_le hc.blkO fr1.next, hc.same, fun h => by rw [hI, hO]; exact hc.disj h⟩
  obtain ⟨fr2, v2⟩ := h2 wf2 I O st1 hc2
  have hw : ∀ q, (∃ a ∈ ins T, q = I + a) → Writable T nd I O q := by
    rintro q ⟨a, ha, rfl⟩
    rcases hnd with h | h
    · exact Or.inr ⟨h, a, ha, rfl⟩
    · left; refine ⟨a, wf.eq h ▸ ha, by rw [hc.same h]⟩
  refine ⟨fr1.trans fr2 ?_ ?_, ?_⟩
  · rintro q _ (⟨b, hb, rfl⟩ | ⟨_, a, ha, rfl⟩)
    · rw [outs_inplace_IS] at hb; exact hw _ ⟨b, hb, rfl⟩
    · rw [ins_inplace_IS] at ha; exact hw _ ⟨a, ha, rfl⟩
  · rintro q _ (⟨b, hb, rfl⟩ | ⟨_, a, ha, rfl⟩)
    · rw [hO] at hb; exact Or.inl ⟨b, hb, rfl⟩
    · rw [hI] at ha; exact hw _ ⟨a, ha, rfl⟩
  · intro dk hdk ab hab
    -- where the in-place result of index `dk` sits
    have hin : ∃ a, (a, gOut dk) ∈ pairs (some (sz.map Prod.fst)) ∧ a = gOut (dk.map fun e => (inpl1 .IS e.1, e.2)) := by
      obtain ⟨rfl, hd2⟩ := hdk
      clear v1 v2 fr1 fr2 wf wf1 wf2 hc hc1 hc2
      clear hab
      clear hw hInd
      refine ⟨_, ?_, rfl⟩
      clear hst1 st1 hT hI hO hLI hTdef T hT2 T2 h1 h2
      induction dk with
      | nil => simp [pairs, offs, gOut]
      | cons e dk ih =>
        rw [List.map_cons, List.map_cons, mem_pairs_cons]
        refine ⟨e.2, hd2 e (by simp), _, ih (fun e he => hd2 e (by simp [he])), ?_⟩
        rw [gOut_cons, List.map_cons, gOut_cons]; simp [inpl1, Dim.inplace]
    obtain ⟨a, ha, ea⟩ := hin
    have h3 := v2 [] ⟨rfl, by simp⟩ (ab + (a, gOut dk)) (pairs_append_mem.2 ⟨ab, hab, _, ha, rfl⟩)
    simp only [gOut_nil, gSum, zero_add] at h3
    have h4 := v1 _ (hdk.inplace .IS) (ab.1, ab.1) ?_
    · rw [← ea] at h4
      rw [show gOut dk + ab.2 = (ab + (a, gOut dk)).2 by simp; ring, h3,
        show (ab + (a, gOut dk)).1 = a + ab.1 by simp; ring, h4]
      have := gSum_restride (K := K) (dk := dk) (Dim.inplace .IS) (fun d => by simp)
        (x := fun o => (val st.mem I δi (o + ab.1) : V)) (y := fun o => (val st.mem I δi (o + ab.1) : V)) ?_
      · exact this
      · intro p hp
        have : p.1 = p.2 := by
          have hh : (dk.map fun e => (e.1.1.n, ((e.1.1.is, (e.1.1.inplace .IS).is) : ℤ × ℤ))) =
              (dk.map fun e => (e.1.1.n, e.1.1.is)).map fun d => (d.1, ((AddMonoidHom.id ℤ).prod (AddMonoidHom.id ℤ)) d.2) := by
            simp [List.map_map, Function.comp_def, Dim.inplace]
          rw [hh, ← offs_map, Multiset.mem_map] at hp
          obtain ⟨x, _, rfl⟩ := hp
          rfl
        rw [this]
    · rw [pairs_copyInplace_IS, Multiset.mem_map]
      exact ⟨ab.1, mem_ins.2 ⟨ab.2, hab⟩, rfl⟩

/-- nothing to do: no transform at all -/
theorem GOK_empty {sz : List (Dim × τ)} {vec : Tensor} (hv : pairs vec = 0) (δi δo : ℤ) (inpl nd : Bool) :
    GOK K sz vec δi δo inpl nd (fun _ _ st => st) := by
  intro wf I O st hc
  refine ⟨Frame.refl _ _, ?_⟩
  intro dk _ ab hab
  rw [hv] at hab; simp at hab

theorem pairs_eq_of_inplace {l : List Dim} (h : inplaceStrides l = true) {p : ℤ × ℤ} (hp : p ∈ pairs (some l)) : p.1 = p.2 := by
  induction l generalizing p with
  | nil => simp [pairs, offs] at hp; simp [hp]
  | cons d l ih =>
    simp only [inplaceStrides, List.all_cons, Bool.and_eq_true, decide_eq_true_eq] at h ih
    rw [mem_pairs_cons] at hp
    obtain ⟨j, _, q, hq, rfl⟩ := hp
    simp only; rw [h.1, ih h.2 hq]

/-- nothing to do: copying an array onto itself (nop.c) -/
theorem GOK_nop {l : List Dim} (hl : inplaceStrides l = true) (δi δo : ℤ) (nd : Bool) :
    GOK K ([] : List (Dim × τ)) (some l) δi δo true nd (fun _ _ st => st) := by
  intro wf I O st hc
  refine ⟨Frame.refl _ _, ?_⟩
  intro dk hdk ab hab
  have hd : dk = [] := List.map_eq_nil_iff.1 hdk.1
  subst hd
  rw [gOut_nil, gSum, wf.delta rfl, hc.same rfl, pairs_eq_of_inplace hl hab]

end FFTW.Spec
