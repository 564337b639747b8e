import Verif.Props.MpiRdftApi
import Verif.Props.ApiR2r

/-!
# C62: a distributed real-to-real transform and its inverse
-/

namespace FFTW.Props
open Tensor Spec RdftS FFTW.Mpi

section
variable [CLib]

omit [CLib] in
/-- a complex plan with the same distribution can be made whenever a real one can -/
theorem guruR_dft {dims : List ADim} {howmany : ℤ} {I O : ℕ → Ptr} {comm : Comm} {kinds : List R2rKind} {flags : MFlags} {space : ℕ → ℕ} {p : MRdftP}
    (hp : planGuruR2r dims howmany I O comm kinds flags space = some p) (bwd : Bool) : ∃ q, planGuruDft dims howmany I O comm bwd flags space = some q := by
  unfold planGuruR2r at hp
  split at hp
  · simp at hp
  rename_i h1
  split at hp
  · simp at hp
  rename_i h2
  simp only at hp
  split at hp
  · simp at hp
  rename_i h3
  refine ⟨mkDft (defaultSz dims comm.length) howmany.toNat I O comm bwd flags space, ?_⟩
  unfold planGuruDft
  rw [if_neg h1, if_neg h2]
  simp only
  rw [if_neg h3]

/-- **C62**: a transform and then the one of the inverse kinds, made with input and output exchanged: the processes have the original array, multiplied by the product of the logical sizes of its
dimensions, in the original layout.  The first plan was made for `I0`, `O0` and is run on `I`, `O`; the second was made for `I0'`, `O0'` and is run on `O`, `J`. -/
theorem C62_roundtrip {junk : TransP → ℕ → List ℤ} (hj : ∀ p w, (junk p w).length = MpiExchange.nPes p.toProb) {ub : MDftP → MPlan}
    {cexp : ℕ → ℤ → ℝ × ℝ} (hc : ExactCexp cexp) {A : Flags → Problem → Plan → Prop} (hA : ∀ fl x c, Kosher x → A fl x c → FFTW.Sound fl.nd x c)
    {dims : List ADim} {howmany : ℤ} (hh : 0 < howmany) {I0 O0 I0' O0' : ℕ → Ptr} {comm : Comm} (hnd : comm.Nodup) {kinds : List R2rKind} {flags : MFlags} {space : ℕ → ℕ}
    (hrnk : 2 ≤ dims.length) (hkl : kinds.length = dims.length) (hn : ∀ d ∈ dims, 1 < d.n) (hlay : LayoutOk dims comm.length flags) {bwd : Bool}
    (hsp : ∀ me < comm.length, (localSizeGuru dims howmany.toNat comm.length me bwd flags).alloc ≤ space (comm.at me))
    (hap : MApart comm space (I0 (comm.at 0) = O0 (comm.at 0)) I0 O0) (hap' : MApart comm space (I0' (comm.at 0) = O0' (comm.at 0)) I0' O0')
    {p p' : MRdftP} (hp : planGuruR2r dims howmany I0 O0 comm kinds flags space = some p)
    (hp' : planGuruR2r (dims.map ADim.exch) howmany I0' O0' comm (kinds.map R2rKind.inv) (exchFlags flags) space = some p')
    {fl fl' : Flags} {d d' : ℕ} {f f' : MPlan} (hf : MPlans (MpiSolver junk ub cexp) A d fl (.rdft p) f) (hf' : MPlans (MpiSolver junk ub cexp) A d' fl' (.rdft p') f')
    {I O J : ℕ → Ptr} {st : Dist} (hr : MCompat comm space (I0 (comm.at 0) = O0 (comm.at 0)) I O st) (hr' : MCompat comm space (I0' (comm.at 0) = O0' (comm.at 0)) O J (f I O st)) {X : List ℕ → ℕ → ℝ}
    (hX : HoldsR howmany.toNat comm I st flags.transposedIn (fun me => (localSizeGuru dims howmany.toNat comm.length me bwd flags).nIn)
      (fun me => (localSizeGuru dims howmany.toNat comm.length me bwd flags).startIn) X) :
    HoldsR howmany.toNat comm J (f' O J (f I O st)) flags.transposedIn (fun me => (localSizeGuru dims howmany.toNat comm.length me bwd flags).nIn)
      (fun me => (localSizeGuru dims howmany.toNat comm.length me bwd flags).startIn)
      fun q v => ((List.zipWith R2rKind.logical kinds (dims.map fun d => d.n.toNat)).prod : ℕ) * X q v := by
  obtain ⟨q, hq⟩ := guruR_dft hp bwd
  have hm := C58_layouts_match hn hlay hq
  have en : (dims.map ADim.exch).map (fun d => d.n.toNat) = dims.map fun d => d.n.toNat := by rw [List.map_map]; rfl
  have hok : SizesOk kinds (dims.map fun d => d.n.toNat) := by
    refine List.forall₂_iff_get.2 ⟨by simpa using hkl, fun i h1 h2 _ => ?_⟩
    simp only [List.get_eq_getElem, List.getElem_map]
    have := hn _ (List.getElem_mem (by simpa using h2 : i < dims.length))
    omega
  have k1 := C62_guru_r2r hj hc hA hh hnd hrnk hkl hn hlay hsp hap hp hf hr hX
  have k2 := C62_guru_r2r hj hc hA (dims := dims.map ADim.exch) (flags := exchFlags flags) hh hnd (by simpa using hrnk) (by simpa using hkl) (by
      intro d hd
      obtain ⟨e, he, rfl⟩ := List.mem_map.1 hd
      exact hn e he) (layout_exch hlay) (bwd := !bwd) (fun me hme => by rw [hm]; exact hsp me hme) hap' hp' hf' hr'
      (X := fun k v => docNd kinds (dims.map fun d => d.n.toNat) (fun j => X j v) k) (by
      simp only [hm]
      exact k1.2)
  have k3 := k2.2
  simp only [hm, en] at k3
  intro me hme l hl v hv
  refine (k3 me hme l hl v hv).trans ?_
  beta_reduce
  have hb := local_index hn hlay hq hl
  rw [(scramble_long (by
    rw [List.length_map]
    omega) _ _ _).1] at hb
  exact Api.C36_inverse_nd hok (fun j => X j v) hb

end

/-! ### non-vacuity: the 3 × 3 transform on three processes of Props/MpiRdft and back -/

attribute [local instance] sortLib

theorem exR_back : planGuruR2r ([⟨3, 1, 3⟩, ⟨3, 3, 1⟩].map ADim.exch) 1 (fun _ => ⟨0, 0⟩) (fun _ => ⟨0, 0⟩) [0, 1, 2] ([R2rKind.FFTW_R2HC, .FFTW_HC2R].map R2rKind.inv) (exchFlags { transposedOut := true })
    (fun _ => 12) = some exR := by
  with_unfolding_all rfl

/-- all hypotheses of `C62_roundtrip` are met: every process has its row again, 9 times as large -/
example (st : Dist) (h : ∀ w, 0 < (st w).next) (fl : Flags) (ub : MDftP → MPlan) : ∃ f : MPlan, ∀ k0 k1 : ℕ, k0 < 3 → k1 < 3 →
    (f (fun _ => ⟨0, 0⟩) (fun _ => ⟨0, 0⟩) (f (fun _ => ⟨0, 0⟩) (fun _ => ⟨0, 0⟩) st) k0).mem ⟨0, k1⟩ = 9 * (st k0).mem ⟨0, k1⟩ := by
  obtain ⟨f, hf⟩ := exR_plan Registered.exCexp ub fl
  refine ⟨f, fun k0 k1 h0 h1 => ?_⟩
  have hap : MApart [0, 1, 2] (fun _ => 12) ((fun _ => (⟨0, 0⟩ : Ptr)) (Comm.at [0, 1, 2] 0) = (fun _ => (⟨0, 0⟩ : Ptr)) (Comm.at [0, 1, 2] 0)) (fun _ => ⟨0, 0⟩) (fun _ => ⟨0, 0⟩) :=
    ⟨fun _ _ _ => rfl, fun h => absurd rfl h, fun h => absurd rfl h⟩
  have hrc : MCompat [0, 1, 2] (fun _ => 12) ((fun _ => (⟨0, 0⟩ : Ptr)) (Comm.at [0, 1, 2] 0) = (fun _ => (⟨0, 0⟩ : Ptr)) (Comm.at [0, 1, 2] 0)) (fun _ => ⟨0, 0⟩) (fun _ => ⟨0, 0⟩) st :=
    ⟨fun w _ => h w, fun w _ => h w, fun _ _ _ => rfl, fun h => absurd rfl h⟩
  have hlay : LayoutOk [⟨3, 1, 3⟩, ⟨3, 3, 1⟩] (List.length [0, 1, 2]) { transposedOut := true } := (show _ ∧ _ from ⟨rfl, .inr ⟨by decide, by decide, by decide⟩⟩)
  have hsp : ∀ me < List.length [0, 1, 2], (localSizeGuru [⟨3, 1, 3⟩, ⟨3, 3, 1⟩] (Int.toNat 1) (List.length [0, 1, 2]) me false { transposedOut := true }).alloc ≤ (fun _ => 12 : ℕ → ℕ) (Comm.at [0, 1, 2] me) := by
    intro me hme
    have : me = 0 ∨ me = 1 ∨ me = 2 := by have : me < 3 := hme; omega
    rcases this with rfl | rfl | rfl <;> decide
  have hX : HoldsR (Int.toNat 1) [0, 1, 2] (fun _ => ⟨0, 0⟩) st false (fun me => (localSizeGuru [⟨3, 1, 3⟩, ⟨3, 3, 1⟩] (Int.toNat 1) (List.length [0, 1, 2]) me false { transposedOut := true }).nIn)
      (fun me => (localSizeGuru [⟨3, 1, 3⟩, ⟨3, 3, 1⟩] (Int.toNat 1) (List.length [0, 1, 2]) me false { transposedOut := true }).startIn) (fun j _ => (st (j.getD 0 0)).mem ⟨0, j.getD 1 0⟩) := by
    intro me hme l hl v hv
    have hv : v = 0 := by have : v < 1 := hv; omega
    subst hv
    have hme : me < 3 := hme
    obtain ⟨e1, e2, _, _⟩ := exR_size me hme
    change Index (localSizeGuru [⟨3, 1, 3⟩, ⟨3, 3, 1⟩] 1 3 me false { transposedOut := true }).nIn l at hl
    change relt 1 [0, 1, 2] _ st (me, rowPos (localSizeGuru [⟨3, 1, 3⟩, ⟨3, 3, 1⟩] 1 3 me false { transposedOut := true }).nIn l) 0 =
      (fun j : List ℕ => (st (j.getD 0 0)).mem ⟨0, j.getD 1 0⟩) (List.zipWith (· + ·) (localSizeGuru [⟨3, 1, 3⟩, ⟨3, 3, 1⟩] 1 3 me false { transposedOut := true }).startIn l)
    rw [e1] at hl ⊢
    rw [e2]
    cases hl with | @cons l0 _ _ _ g0 hl =>
    cases hl with | @cons l1 _ _ _ g1 hl =>
    cases hl
    interval_cases me <;> interval_cases l0 <;> interval_cases l1 <;> rfl
  have hrun := (C62_guru_r2r (junk := exJunk) (fun p w => by simp [exJunk]) Registered.exCexp_exact (exRB_sound Registered.exCexp_exact) (by norm_num) (by decide) (by decide) rfl (by decide) hlay
    hsp hap exR_api hf hrc hX).1
  have key := C62_roundtrip (junk := exJunk) (fun p w => by simp [exJunk]) Registered.exCexp_exact (exRB_sound Registered.exCexp_exact) (by norm_num) (by decide) (by decide) rfl (by decide) hlay
    hsp hap hap exR_api exR_back hf hf hrc (J := fun _ => ⟨0, 0⟩) ⟨fun w hw => ?_, fun w hw => ?_, fun _ _ _ => rfl, fun h => absurd rfl h⟩ hX k0 h0 [0, k1] ?_ 0 (by decide)
  case refine_3 =>
    obtain ⟨e1, _, _, _⟩ := exR_size k0 h0
    change Index (localSizeGuru [⟨3, 1, 3⟩, ⟨3, 3, 1⟩] 1 3 k0 false { transposedOut := true }).nIn _
    rw [e1]
    exact .cons (by norm_num) (.cons h1 .nil)
  case refine_1 => exact lt_of_lt_of_le (h w) (hrun.frame w hw).next
  case refine_2 => exact lt_of_lt_of_le (h w) (hrun.frame w hw).next
  change relt 1 [0, 1, 2] _ _ (k0, rowPos (localSizeGuru [⟨3, 1, 3⟩, ⟨3, 3, 1⟩] 1 3 k0 false { transposedOut := true }).nIn [0, k1]) 0 =
    ((9 : ℕ) : ℝ) * (fun j : List ℕ => (st (j.getD 0 0)).mem ⟨0, j.getD 1 0⟩) (List.zipWith (· + ·) (localSizeGuru [⟨3, 1, 3⟩, ⟨3, 3, 1⟩] 1 3 k0 false { transposedOut := true }).startIn [0, k1]) at key
  obtain ⟨e1, e2, _, _⟩ := exR_size k0 h0
  rw [e1, e2] at key
  have e : rowPos [1, 3] [0, k1] = k1 := by simp [rowPos]
  rw [e] at key
  have ek : Comm.at [0, 1, 2] k0 = k0 := by interval_cases k0 <;> rfl
  simp only [relt, ek] at key
  interval_cases k0 <;> interval_cases k1 <;> exact_mod_cast key

end FFTW.Props
