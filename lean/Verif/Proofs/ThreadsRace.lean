import Verif.Proofs.ThreadsTw
import Verif.Proofs.Interleave

/-! # The threads of the threaded solvers do not race -/

namespace FFTW.Spec
open FFTW.Tensor FFTW.Thr

variable {V τ : Type} [CommRing V] [Elt V] {K : τ → ℕ → ℕ → ℕ → V}

/-- pieces of a vector of transforms do not interfere -/
theorem pieces_sep {sz : List (Dim × τ)} {δi δo : ℤ} {inpl nd : Bool} {m : ℕ} {voff : ℕ → ℤ × ℤ} {vecs : ℕ → Tensor} {vec : Tensor}
    (hp : pairs vec = (Multiset.range m).bind fun i => (pairs (vecs i)).map fun v => voff i + v)
    (hA : ∀ i < m, inpl = true → (voff i).1 = (voff i).2)
    (hin : inpl = true → ∀ i < m, ins (locT V δi δo sz (vecs i)) = outs (locT V δi δo sz (vecs i)))
    (wf : WF V sz vec δi δo inpl nd) {I O : Ptr} {st : State} (hcomp : Compat (locT V δi δo sz vec) inpl I O st) :
    (∀ j < m, ∀ k < m, j ≠ k → ∀ q, ((∃ a ∈ ins (locT V δi δo sz (vecs j)), q = I + ((voff j).1 + a)) ∨ ∃ b ∈ outs (locT V δi δo sz (vecs j)), q = O + ((voff j).2 + b)) →
      ¬ Writable (locT V δi δo sz (vecs k)) nd (I + (voff k).1) (O + (voff k).2) q) ∧
    (∀ j < m, ∀ a ∈ ins (locT V δi δo sz (vecs j)), (voff j).1 + a ∈ ins (locT V δi δo sz vec)) ∧
    ∀ j < m, ∀ a ∈ outs (locT V δi δo sz (vecs j)), (voff j).2 + a ∈ outs (locT V δi δo sz vec) := by
  have hpp := pairs_locT_pieces (V := V) (δi := δi) (δo := δo) (sz := sz) hp
  set T := locT V δi δo sz vec with hT
  set Tc := fun i => locT V δi δo sz (vecs i) with hTc
  have hI : ins T = (Multiset.range m).bind fun i => (ins (Tc i)).map fun v => (voff i).1 + v := by
    rw [ins_eq, hpp, Multiset.map_bind]
    refine Multiset.bind_congr fun i _ => ?_
    rw [ins_eq, Multiset.map_map, Multiset.map_map]; rfl
  have hO : outs T = (Multiset.range m).bind fun i => (outs (Tc i)).map fun v => (voff i).2 + v := by
    rw [outs_eq, hpp, Multiset.map_bind]
    refine Multiset.bind_congr fun i _ => ?_
    rw [outs_eq, Multiset.map_map, Multiset.map_map]; rfl
  have hmI : ∀ j < m, ∀ a ∈ ins (Tc j), (voff j).1 + a ∈ ins T := by
    intro j hj a ha; rw [hI, Multiset.mem_bind]; exact ⟨j, Multiset.mem_range.2 hj, Multiset.mem_map_of_mem _ ha⟩
  have hmO : ∀ j < m, ∀ a ∈ outs (Tc j), (voff j).2 + a ∈ outs T := by
    intro j hj a ha; rw [hO, Multiset.mem_bind]; exact ⟨j, Multiset.mem_range.2 hj, Multiset.mem_map_of_mem _ ha⟩
  have hnO := wf.out
  rw [← hT, hO] at hnO
  obtain ⟨nO, sepO⟩ := pieces_nodup hnO
  have hnI : nd = false → _ := fun h => by
    have := wf.inp h
    rw [← hT, hI] at this
    exact pieces_nodup this
  refine ⟨?_, hmI, hmO⟩
  rintro j hj k hk hne' q hq (⟨b, hb, rfl⟩ | ⟨hnd, a, ha, rfl⟩)
  · rw [Ptr.add_add] at hq
    rcases hq with ⟨a', ha', e⟩ | ⟨b', hb', e⟩
    · cases hip : inpl with
      | false => exact hcomp.disj hip _ (hmI j hj a' ha') _ (hmO k hk b hb) e.symm
      | true =>
        have hIO := hcomp.same hip; subst hIO
        rw [Ptr.add_inj, hA j hj hip] at e
        exact sepO k hk j hj (Ne.symm hne') b hb a' (hin hip j hj ▸ ha') e
    · rw [Ptr.add_inj] at e
      exact sepO k hk j hj (Ne.symm hne') b hb b' hb' e
  · rw [Ptr.add_add] at hq
    rcases hq with ⟨a', ha', e⟩ | ⟨b', hb', e⟩
    · rw [Ptr.add_inj] at e
      exact (hnI hnd).2 k hk j hj (Ne.symm hne') a ha a' ha' e
    · cases hip : inpl with
      | false => exact hcomp.disj hip _ (hmI k hk a ha) _ (hmO j hj b' hb') e
      | true =>
        have hIO := hcomp.same hip; subst hIO
        rw [Ptr.add_inj, hA k hk hip] at e
        exact sepO k hk j hj (Ne.symm hne') a (hin hip k hk ▸ ha) b' hb' e

open Conc in
/-- pieces of a vector of transforms, each done by a thread, with any interleaving of the accesses -/
theorem pieces_interleaved {sz : List (Dim × τ)} {δi δo : ℤ} {inpl nd : Bool} {m : ℕ} {voff : ℕ → ℤ × ℤ} {vecs : ℕ → Tensor} {vec : Tensor}
    (hp : pairs vec = (Multiset.range m).bind fun i => (pairs (vecs i)).map fun v => voff i + v)
    (hA : ∀ i < m, inpl = true → (voff i).1 = (voff i).2)
    (hin : inpl = true → ∀ i < m, ins (locT V δi δo sz (vecs i)) = outs (locT V δi δo sz (vecs i)))
    (wf : WF V sz vec δi δo inpl nd) {I O : Ptr} {st : State} (hcomp : Compat (locT V δi δo sz vec) inpl I O st)
    {scr : ℕ → Ptr → Prop} (hs1 : ∀ i < m, ∀ q, scr i q → st.next ≤ q.blk) (hs2 : ∀ i < m, ∀ j < m, i ≠ j → ∀ q, scr i q → ¬ scr j q)
    {P : ℕ → List (Act Ptr ℝ)}
    (hP : ∀ i < m, ∀ a ∈ P i, Confined (fun q => ∃ a ∈ ins (locT V δi δo sz (vecs i)), q = I + ((voff i).1 + a))
      (fun q => Writable (locT V δi δo sz (vecs i)) nd (I + (voff i).1) (O + (voff i).2) q ∨ scr i q) a)
    (hval : ∀ i < m, ∀ dk, GIdx sz dk → ∀ ab ∈ pairs (vecs i),
      val ((P i).foldl (fun m a => a m) st.mem) (O + (voff i).2) δo (gOut dk + ab.2) = gSum K dk fun o => (val st.mem (I + (voff i).1) δi (o + ab.1) : V))
    {l : List (ℕ × Act Ptr ℝ)} (hl : Interleaves m P l) :
    (∀ q, q.blk < st.next → ¬ Writable (locT V δi δo sz vec) nd I O q → run l st.mem q = st.mem q) ∧
    ∀ dk, GIdx sz dk → ∀ ab ∈ pairs vec, val (run l st.mem) O δo (gOut dk + ab.2) = gSum K dk fun o => (val st.mem I δi (o + ab.1) : V) := by
  obtain ⟨sep, hmI, hmO⟩ := pieces_sep hp hA hin wf hcomp
  set Tc := fun i => locT V δi δo sz (vecs i) with hTc
  set R : ℕ → Ptr → Prop := fun i q => i < m ∧ ∃ a ∈ ins (Tc i), q = I + ((voff i).1 + a) with hR
  set W : ℕ → Ptr → Prop := fun i q => i < m ∧ (Writable (Tc i) nd (I + (voff i).1) (O + (voff i).2) q ∨ scr i q) with hW
  have hWio : ∀ i q, Writable (Tc i) nd (I + (voff i).1) (O + (voff i).2) q →
      (∃ a ∈ ins (Tc i), q = I + ((voff i).1 + a)) ∨ ∃ b ∈ outs (Tc i), q = O + ((voff i).2 + b) := by
    rintro i q (⟨b, hb, rfl⟩ | ⟨_, a, ha, rfl⟩)
    · exact Or.inr ⟨b, hb, by rw [Ptr.add_add]⟩
    · exact Or.inl ⟨a, ha, by rw [Ptr.add_add]⟩
  have hlow : ∀ i q, ((∃ a ∈ ins (Tc i), q = I + ((voff i).1 + a)) ∨ ∃ b ∈ outs (Tc i), q = O + ((voff i).2 + b)) → q.blk < st.next := by
    rintro i q (⟨a, _, rfl⟩ | ⟨a, _, rfl⟩)
    · exact hcomp.blkI
    · exact hcomp.blkO
  have hr : RaceFree R W := by
    rintro i j hij q ⟨hi, hw⟩
    constructor
    · rintro ⟨hj, h⟩
      rcases hw with hw | hw
      · exact sep j hj i hi (Ne.symm hij) q (Or.inl h) hw
      · have := hs1 i hi q hw; have := hlow j q (Or.inl h); omega
    · rintro ⟨hj, h⟩
      rcases hw with hw | hw
      · rcases h with h | h
        · exact sep j hj i hi (Ne.symm hij) q (hWio j q h) hw
        · have := hs1 j hj q h; have := hlow i q (hWio i q hw); omega
      · rcases h with h | h
        · have := hs1 i hi q hw; have := hlow j q (hWio j q h); omega
        · exact hs2 i hi j hj hij q hw h
  have hcf : ∀ ia ∈ l, Confined (R ia.1) (W ia.1) ia.2 := by
    rintro ⟨i, a⟩ h
    have hi := hl.lt _ h
    have : (i, a) ∈ only i l := by simp [only, h]
    rw [hl.prog i hi] at this
    obtain ⟨a', ha', e⟩ := List.mem_map.1 this
    obtain rfl := (Prod.mk.inj e).2
    have := hP i hi a' ha'
    refine ⟨fun m q hq => this.frame m q fun h => hq ⟨hi, h⟩, fun m m' h q hq => this.dep m m' (fun q hq => h q ?_) q hq.2⟩
    exact hq.imp (fun h => ⟨hi, h⟩) fun h => ⟨hi, h⟩
  have hrun : ∀ i < m, run (only i l) st.mem = (P i).foldl (fun m a => a m) st.mem := by
    intro i hi
    rw [hl.prog i hi, run, List.foldl_map]
  refine ⟨?_, ?_⟩
  · intro q hq hnw
    apply run_frame hcf
    rintro i ⟨hi, h | h⟩
    · apply hnw
      rcases h with ⟨b, hb, rfl⟩ | ⟨hnd, a, ha, rfl⟩
      · exact Or.inl ⟨_, hmO i hi b hb, by rw [Ptr.add_add]⟩
      · exact Or.inr ⟨hnd, _, hmI i hi a ha, by rw [Ptr.add_add]⟩
    · have := hs1 i hi q h; omega
  · intro dk hdk ab hab
    rw [hp, Multiset.mem_bind] at hab
    obtain ⟨j, hj, hab⟩ := hab
    rw [Multiset.mem_map] at hab
    obtain ⟨q, hq, rfl⟩ := hab
    replace hj := Multiset.mem_range.1 hj
    have := hval j hj dk hdk q hq
    rw [val_shift] at this
    rw [show gOut dk + (voff j + q).2 = (voff j).2 + (gOut dk + q.2) by simp; ring]
    have e : (val (run l st.mem) O δo ((voff j).2 + (gOut dk + q.2)) : V) = val ((P j).foldl (fun m a => a m) st.mem) O δo ((voff j).2 + (gOut dk + q.2)) := by
      apply val_congr
      intro c hc
      rw [← hrun j hj]
      apply run_only hr hcf
      right
      refine ⟨hj, Or.inl (Or.inl ⟨c * δo + (gOut dk + q.2), ?_, ?_⟩)⟩
      · obtain ⟨a, ha⟩ := gOut_mem hdk
        rw [mem_outs]
        exact ⟨_, mem_locT.2 ⟨c, hc, _, ha, q, hq, rfl⟩⟩
      · rw [Ptr.add_add]; congr 1; ring
    rw [e, this]
    congr 1; funext o
    rw [val_shift]; congr 1; simp; ring

end FFTW.Spec
