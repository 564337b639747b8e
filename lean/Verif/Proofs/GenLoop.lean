import Verif.Proofs.Contract
import Mathlib.Data.Multiset.Pairwise

/-! generic contract lemmas: monotonicity, re-description of the problem, loops over a vector dimension -/

namespace FFTW.Spec
open FFTW.Tensor
variable {V τ : Type} [CommRing V] [Elt V] {K : τ → ℕ → ℕ → ℕ → V}

theorem GOK.weaken {sz : List (Dim × τ)} {vec : Tensor} {δi δo : ℤ} {inpl : Bool} {f : Ptr → Ptr → State → State} {nd nd' : Bool}
    (hnd : nd' = true → nd = true) (h : GOK K sz vec δi δo inpl nd f) : GOK K sz vec δi δo inpl nd' f := by
  intro wf I O st hc
  have wf' : WF V sz vec δi δo inpl nd := ⟨wf.out, fun h' => wf.inp (by
    cases nd'; rfl; rw [hnd rfl] at h'; exact h'), wf.eq, wf.delta⟩
  obtain ⟨h1, h2⟩ := h wf' I O st hc
  refine ⟨h1.mono ?_, h2⟩
  rintro q _ (h | ⟨h, h'⟩)
  · exact Or.inl h
  · refine Or.inr ⟨?_, h'⟩
    cases nd'; rfl; rw [hnd rfl] at h; exact h

theorem pairs_locT (δi δo : ℤ) (sz : List (Dim × τ)) (vec : Tensor) :
    pairs (locT V δi δo sz vec) = (offs [(Elt.nc V, ((δi, δo) : ℤ × ℤ))]).bind fun c =>
      (pairs (some (sz.map Prod.fst))).bind fun s => (pairs vec).map fun v => c + (s + v) := by
  cases vec with
  | none =>
    rw [locT_none]
    simp only [pairs, Multiset.map_zero, Multiset.bind_zero]
  | some l =>
    rw [locT_some, pairs_some, List.map_cons, List.map_append]
    rw [show ∀ x : ℕ × (ℤ × ℤ), ∀ l, x :: l = [x] ++ l from fun _ _ => rfl, offs_append, offs_append]
    simp only [Multiset.map_bind, Multiset.map_map, Function.comp_def]
    rfl

theorem GOK.transfer {K' : τ → ℕ → ℕ → ℕ → V} {sz sz' : List (Dim × τ)} {vec vec' : Tensor} {δi δo : ℤ} {inpl nd : Bool}
    {f : Ptr → Ptr → State → State}
    (h : GOK K' sz' vec' δi δo inpl nd f)
    (hp : pairs vec = pairs vec') (hl : pairs (some (sz.map Prod.fst)) = pairs (some (sz'.map Prod.fst)))
    (hdk : ∀ dk, GIdx sz dk → ∃ dk', GIdx sz' dk' ∧ gOut dk' = gOut dk ∧ ∀ x, gSum K' dk' x = gSum K dk x) :
    GOK K sz vec δi δo inpl nd f := by
  have hT : pairs (locT V δi δo sz vec) = pairs (locT V δi δo sz' vec') := by rw [pairs_locT, pairs_locT, hp, hl]
  have hI : ins (locT V δi δo sz vec) = ins (locT V δi δo sz' vec') := by rw [ins_eq, ins_eq, hT]
  have hO : outs (locT V δi δo sz vec) = outs (locT V δi δo sz' vec') := by rw [outs_eq, outs_eq, hT]
  intro wf I O st hc
  obtain ⟨h1, h2⟩ := h ⟨hO ▸ wf.out, fun h => hI ▸ wf.inp h, fun h => by rw [← hI, ← hO]; exact wf.eq h, wf.delta⟩ I O st
    ⟨hc.blkI, hc.blkO, hc.same, fun h => by rw [← hI, ← hO]; exact hc.disj h⟩
  refine ⟨h1.mono ?_, ?_⟩
  · rintro q _ h; simpa only [Writable, hI, hO] using h
  · intro dk hd ab hab
    obtain ⟨dk', i1, i2, i3⟩ := hdk dk hd
    rw [← i2, h2 dk' i1 ab (hp ▸ hab), i3]

/-- same problem, vector dimensions described differently -/
theorem GOK.vec_congr {sz : List (Dim × τ)} {vec vec' : Tensor} {δi δo : ℤ} {inpl nd : Bool} {f : Ptr → Ptr → State → State}
    (h : GOK K sz vec' δi δo inpl nd f) (hp : pairs vec = pairs vec') : GOK K sz vec δi δo inpl nd f :=
  h.transfer hp rfl fun dk hd => ⟨dk, hd, rfl, fun _ => rfl⟩

/-- two implementations with the same effect -/
theorem GOK.congr {sz : List (Dim × τ)} {vec : Tensor} {δi δo : ℤ} {inpl nd : Bool} {f g : Ptr → Ptr → State → State}
    (h : GOK K sz vec δi δo inpl nd f) (hfg : ∀ I O st, g I O st = f I O st) : GOK K sz vec δi δo inpl nd g := by
  have : g = f := by funext I O st; exact hfg I O st
  rwa [this]

/-! ### distinctness -/

theorem pieces_nodup {m : ℕ} {s : ℕ → ℤ} {S : ℕ → Multiset ℤ}
    (h : ((Multiset.range m).bind fun i => (S i).map fun x => s i + x).Nodup) :
    (∀ i < m, (S i).Nodup) ∧ ∀ j < m, ∀ j' < m, j ≠ j' → ∀ b ∈ S j, ∀ b' ∈ S j', s j + b ≠ s j' + b' := by
  rw [Multiset.nodup_bind] at h
  obtain ⟨h1, h2⟩ := h
  constructor
  · intro i hi
    exact Multiset.Nodup.of_map _ (h1 i (Multiset.mem_range.2 hi))
  · intro j hj j' hj' hne b hb b' hb' e
    haveI : Std.Symm (Function.onFun Disjoint fun i : ℕ => (S i).map fun x => s i + x) := ⟨fun _ _ h => h.symm⟩
    have hp := Multiset.Pairwise.forall h2 (Multiset.mem_range.2 hj) (Multiset.mem_range.2 hj') hne
    simp only [Function.onFun] at hp
    rw [Multiset.disjoint_left] at hp
    exact hp (Multiset.mem_map_of_mem _ hb) (by rw [e]; exact Multiset.mem_map_of_mem _ hb')

theorem mem_ins_cons {d : Dim} {l : List Dim} {a : ℤ} : a ∈ ins (some (d :: l)) ↔ ∃ j < d.n, ∃ a' ∈ ins (some l), a = j * d.is + a' := by
  simp only [mem_ins, mem_pairs_cons]
  constructor
  · rintro ⟨b, j, hj, q, hq, h⟩; exact ⟨j, hj, q.1, ⟨q.2, hq⟩, congrArg Prod.fst h⟩
  · rintro ⟨j, hj, a', ⟨b, hb⟩, rfl⟩; exact ⟨_, j, hj, _, hb, rfl⟩
theorem mem_outs_cons {d : Dim} {l : List Dim} {a : ℤ} : a ∈ outs (some (d :: l)) ↔ ∃ j < d.n, ∃ a' ∈ outs (some l), a = j * d.os + a' := by
  simp only [mem_outs, mem_pairs_cons]
  constructor
  · rintro ⟨b, j, hj, q, hq, h⟩; exact ⟨j, hj, q.2, ⟨q.1, hq⟩, congrArg Prod.snd h⟩
  · rintro ⟨j, hj, a', ⟨b, hb⟩, rfl⟩; exact ⟨_, j, hj, _, hb, rfl⟩

/-- locations of a problem whose vector is cut into pieces -/
theorem pairs_locT_pieces {δi δo : ℤ} {sz : List (Dim × τ)} {m : ℕ} {voff : ℕ → ℤ × ℤ} {vecs : ℕ → Tensor} {vec : Tensor}
    (hp : pairs vec = (Multiset.range m).bind fun i => (pairs (vecs i)).map fun v => voff i + v) :
    pairs (locT V δi δo sz vec) = (Multiset.range m).bind fun i => (pairs (locT V δi δo sz (vecs i))).map fun v => voff i + v := by
  simp only [pairs_locT, hp, Multiset.map_bind, Multiset.map_map, Function.comp_def]
  rw [Multiset.bind_bind (Multiset.range m)]
  refine Multiset.bind_congr fun c _ => ?_
  rw [Multiset.bind_bind (Multiset.range m)]
  refine Multiset.bind_congr fun s _ => Multiset.bind_congr fun i _ => Multiset.map_congr rfl fun v _ => ?_
  ring_nf

/-- **Pieces.** The vector of transforms is cut into pieces, done one after the other. -/
theorem GOK_pieces {sz : List (Dim × τ)} {δi δo : ℤ} {inpl nd : Bool} {m : ℕ} {voff : ℕ → ℤ × ℤ} {vecs : ℕ → Tensor} {vec : Tensor}
    {ip : ℕ → Bool} {f : ℕ → Ptr → Ptr → State → State}
    (hp : pairs vec = (Multiset.range m).bind fun i => (pairs (vecs i)).map fun v => voff i + v)
    (hc : ∀ i < m, GOK K sz (vecs i) δi δo (ip i) nd (f i))
    (hA : ∀ i < m, ip i = true → inpl = true ∧ (voff i).1 = (voff i).2)
    (hB : ∀ i < m, ip i = false → inpl = false ∨ pairs (vecs i) = 0)
    (hin : inpl = true → ∀ i < m, ins (locT V δi δo sz (vecs i)) = outs (locT V δi δo sz (vecs i))) :
    GOK K sz vec δi δo inpl nd (fun I O st => forN m (fun i st => f i (I + (voff i).1) (O + (voff i).2) st) st) := by
  intro wf I O st hcomp
  have hpp := pairs_locT_pieces (V := V) (δi := δi) (δo := δo) (sz := sz) hp
  set T := locT V δi δo sz vec with hT
  set Tc := fun i => locT V δi δo sz (vecs i) with hTc
  have hI : ins T = (Multiset.range m).bind fun i => (ins (Tc i)).map fun v => (voff i).1 + v := by
    rw [ins_eq, hpp, Multiset.map_bind]
    refine Multiset.bind_congr fun i _ => ?_
    rw [ins_eq, Multiset.map_map, Multiset.map_map]; rfl
  have hO : outs T = (Multiset.range m).bind fun i => (outs (Tc i)).map fun v => (voff i).2 + v := by
    rw [outs_eq, hpp, Multiset.map_bind]
    refine Multiset.bind_congr fun i _ => ?_
    rw [outs_eq, Multiset.map_map, Multiset.map_map]; rfl
  have hmI : ∀ j < m, ∀ a ∈ ins (Tc j), (voff j).1 + a ∈ ins T := by
    intro j hj a ha; rw [hI, Multiset.mem_bind]; exact ⟨j, Multiset.mem_range.2 hj, Multiset.mem_map_of_mem _ ha⟩
  have hmO : ∀ j < m, ∀ a ∈ outs (Tc j), (voff j).2 + a ∈ outs T := by
    intro j hj a ha; rw [hO, Multiset.mem_bind]; exact ⟨j, Multiset.mem_range.2 hj, Multiset.mem_map_of_mem _ ha⟩
  have hnO := wf.out
  rw [← hT, hO] at hnO
  obtain ⟨nO, sepO⟩ := pieces_nodup hnO
  have hnI : nd = false → _ := fun h => by
    have := wf.inp h
    rw [← hT, hI] at this
    exact pieces_nodup this
  -- nonempty pieces of an in-place problem are in place
  have hne : inpl = true → ∀ i < m, ∀ a, (a ∈ ins (Tc i) ∨ a ∈ outs (Tc i)) → ip i = true ∧ (voff i).1 = (voff i).2 := by
    intro h i hi a ha
    cases hip : ip i with
    | true => exact ⟨rfl, (hA i hi hip).2⟩
    | false =>
      exfalso
      rcases hB i hi hip with h' | h'
      · rw [h] at h'; exact absurd h' (by simp)
      · have : pairs (Tc i) = 0 := by rw [hTc]; simp only [pairs_locT, h']; simp
        rw [ins_eq, outs_eq, this] at ha
        simp at ha
  -- pieces do not interfere
  have sep : ∀ j < m, ∀ k < m, j ≠ k → ∀ q, ((∃ a ∈ ins (Tc j), q = I + ((voff j).1 + a)) ∨ ∃ b ∈ outs (Tc j), q = O + ((voff j).2 + b)) →
      ¬ Writable (Tc k) nd (I + (voff k).1) (O + (voff k).2) q := by
    rintro j hj k hk hne' q hq (⟨b, hb, rfl⟩ | ⟨hnd, a, ha, rfl⟩)
    · rw [Ptr.add_add] at hq
      rcases hq with ⟨a', ha', e⟩ | ⟨b', hb', e⟩
      · cases hip : inpl with
        | false => exact hcomp.disj hip _ (hmI j hj a' ha') _ (hmO k hk b hb) e.symm
        | true =>
          have hIO := hcomp.same hip; subst hIO
          rw [Ptr.add_inj, (hne hip j hj a' (Or.inl ha')).2] at e
          exact sepO k hk j hj (Ne.symm hne') b hb a' (hin hip j hj ▸ ha') e
      · rw [Ptr.add_inj] at e
        exact sepO k hk j hj (Ne.symm hne') b hb b' hb' e
    · rw [Ptr.add_add] at hq
      rcases hq with ⟨a', ha', e⟩ | ⟨b', hb', e⟩
      · rw [Ptr.add_inj] at e
        exact (hnI hnd).2 k hk j hj (Ne.symm hne') a ha a' ha' e
      · cases hip : inpl with
        | false => exact hcomp.disj hip _ (hmI k hk a ha) _ (hmO j hj b' hb') e
        | true =>
          have hIO := hcomp.same hip; subst hIO
          rw [Ptr.add_inj, (hne hip k hk a (Or.inl ha)).2] at e
          exact sepO k hk j hj (Ne.symm hne') a (hin hip k hk ▸ ha) b' hb' e
  have wfc : ∀ i < m, WF V sz (vecs i) δi δo (ip i) nd := by
    intro i hi
    exact ⟨nO i hi, fun h => (hnI h).1 i hi, fun h => hin (hA i hi h).1 i hi, fun h => wf.delta (hA i hi h).1⟩
  set body := fun (i : ℕ) (st : State) => f i (I + (voff i).1) (O + (voff i).2) st with hbody
  have key : ∀ k ≤ m, Frame st (forN k body st) (fun q => ∃ j < k, Writable (Tc j) nd (I + (voff j).1) (O + (voff j).2) q) ∧
      ∀ j < k, ∀ dk, GIdx sz dk → ∀ ab ∈ pairs (vecs j),
        val (forN k body st).mem (O + (voff j).2) δo (gOut dk + ab.2) = gSum K dk fun o => (val st.mem (I + (voff j).1) δi (o + ab.1) : V) := by
    intro k
    induction k with
    | zero => intro _; exact ⟨Frame.refl _ _, fun j hj => absurd hj (Nat.not_lt_zero _)⟩
    | succ k ih =>
      intro hk
      obtain ⟨fr, vals⟩ := ih (by omega)
      have hcc : Compat (Tc k) (ip k) (I + (voff k).1) (O + (voff k).2) (forN k body st) := by
        refine ⟨lt_of_lt_of_le hcomp.blkI fr.next, lt_of_lt_of_le hcomp.blkO fr.next, ?_, ?_⟩
        · intro h; rw [hcomp.same (hA k (by omega) h).1, (hA k (by omega) h).2]
        · intro h a ha b hb
          rw [Ptr.add_add, Ptr.add_add]
          rcases hB k (by omega) h with h' | h'
          · exact hcomp.disj h' _ (hmI k (by omega) a ha) _ (hmO k (by omega) b hb)
          · exfalso
            have : pairs (Tc k) = 0 := by rw [hTc]; simp only [pairs_locT, h']; simp
            rw [ins_eq, this] at ha
            simp at ha
      obtain ⟨fr2, vals2⟩ := hc k (by omega) (wfc k (by omega)) _ _ _ hcc
      have unch : ∀ q, q.blk < st.next → (∃ a ∈ ins (Tc k), q = I + ((voff k).1 + a)) → (forN k body st).mem q = st.mem q := by
        rintro q hq ha
        apply fr.mem q hq
        rintro ⟨j, hj, hw⟩
        exact sep k (by omega) j (by omega) (by omega) q (Or.inl ha) hw
      refine ⟨Frame.trans fr fr2 ?_ ?_, ?_⟩
      · rintro q _ ⟨j, hj, h⟩; exact ⟨j, by omega, h⟩
      · rintro q _ h; exact ⟨k, by omega, h⟩
      · intro j hj dk hdk ab hab
        rcases Nat.lt_succ_iff_lt_or_eq.1 hj with hj | rfl
        · rw [← vals j hj dk hdk ab hab]
          apply val_congr
          intro c hcnc
          rw [forN_succ]
          apply fr2.mem
          · exact lt_of_lt_of_le hcomp.blkO fr.next
          · obtain ⟨a, ha⟩ := gOut_mem hdk
            apply sep j (by omega) k (by omega) (by omega)
            right
            refine ⟨c * δo + (gOut dk + ab.2), ?_, by rw [Ptr.add_add]⟩
            rw [mem_outs]
            exact ⟨_, mem_locT.2 ⟨c, hcnc, _, ha, ab, hab, rfl⟩⟩
        · rw [forN_succ, hbody]
          rw [vals2 dk hdk ab hab]
          apply gSum_congr
          intro o ho
          apply val_congr
          intro c hcnc
          apply unch
          · exact hcomp.blkI
          · refine ⟨c * δi + (o + ab.1), ?_, by rw [Ptr.add_add]⟩
            rw [mem_ins] at ho ⊢
            obtain ⟨b, hb⟩ := ho
            have hmap : (dk.map fun e => e.1.1) = sz.map Prod.fst := by rw [← hdk.1, List.map_map]; rfl
            rw [hmap] at hb
            exact ⟨_, mem_locT.2 ⟨c, hcnc, _, hb, ab, hab, rfl⟩⟩
  obtain ⟨fr, vals⟩ := key m (le_refl _)
  refine ⟨fr.mono ?_, ?_⟩
  · rintro q _ ⟨j, hj, ⟨b, hb, rfl⟩ | ⟨hnd, a, ha, rfl⟩⟩
    · exact Or.inl ⟨_, hmO j hj b hb, by rw [Ptr.add_add]⟩
    · exact Or.inr ⟨hnd, _, hmI j hj a ha, by rw [Ptr.add_add]⟩
  · intro dk hdk ab hab
    rw [hp, Multiset.mem_bind] at hab
    obtain ⟨j, hj, hab⟩ := hab
    rw [Multiset.mem_map] at hab
    obtain ⟨q, hq, rfl⟩ := hab
    have := vals j (Multiset.mem_range.1 hj) dk hdk q hq
    rw [val_shift] at this
    rw [show gOut dk + (voff j + q).2 = (voff j).2 + (gOut dk + q.2) by simp; ring, this]
    congr 1; funext o
    rw [val_shift]; congr 1; simp; ring

theorem pairs_cons (d : Dim) (l : List Dim) :
    pairs (some (d :: l)) = (Multiset.range d.n).bind fun i => (pairs (some l)).map fun v => ((i : ℤ) * d.is, (i : ℤ) * d.os) + v := by
  simp only [pairs, List.map_cons, offs]
  refine Multiset.bind_congr fun i _ => Multiset.map_congr rfl fun v _ => ?_
  ext <;> simp

/-- a loop over one vector dimension (vrank-geq1.c) -/
theorem GOK_loop {sz : List (Dim × τ)} {δi δo : ℤ} {inpl nd : Bool} {f : Ptr → Ptr → State → State} {d : Dim} {rest : List Dim}
    (hc : GOK K sz (some rest) δi δo inpl nd f)
    (hin : inpl = true → ins (locT V δi δo sz (some rest)) = outs (locT V δi δo sz (some rest)))
    (hs : inpl = true → d.is = d.os) :
    GOK K sz (some (d :: rest)) δi δo inpl nd
      (fun I O st => forN d.n (fun i st => f (I + (i : ℤ) * d.is) (O + (i : ℤ) * d.os) st) st) :=
  GOK_pieces (m := d.n) (voff := fun i => ((i : ℤ) * d.is, (i : ℤ) * d.os)) (vecs := fun _ => some rest) (ip := fun _ => inpl)
    (f := fun _ => f) (pairs_cons d rest) (fun _ _ => hc) (fun i _ h => ⟨h, by simp only; rw [hs h]⟩) (fun _ _ h => Or.inl h)
    (fun h _ _ => hin h)

theorem pairs_concat (a b : ℕ) (s t : ℤ) (l : List Dim) :
    pairs (some (⟨a + b, s, t⟩ :: l)) = pairs (some (⟨a, s, t⟩ :: l)) + (pairs (some (⟨b, s, t⟩ :: l))).map fun v => ((a : ℤ) * s, (a : ℤ) * t) + v := by
  simp only [pairs_cons]
  rw [Multiset.range_add, Multiset.add_bind, Multiset.bind_map, Multiset.map_bind]
  congr 1
  refine Multiset.bind_congr fun i _ => ?_
  rw [Multiset.map_map]
  refine Multiset.map_congr rfl fun v _ => ?_
  ext <;> simp <;> ring

/-- the first `a` transforms, then the remaining `b` -/
theorem GOK_concat {sz : List (Dim × τ)} {δi δo : ℤ} {inpl ip2 nd : Bool} {f g : Ptr → Ptr → State → State} {a b : ℕ} {s t : ℤ} {l : List Dim}
    (hf : GOK K sz (some (⟨a, s, t⟩ :: l)) δi δo inpl nd f) (hg : GOK K sz (some (⟨b, s, t⟩ :: l)) δi δo ip2 nd g)
    (h1 : inpl = true → ins (locT V δi δo sz (some (⟨a, s, t⟩ :: l))) = outs (locT V δi δo sz (some (⟨a, s, t⟩ :: l))))
    (h2 : inpl = true → ins (locT V δi δo sz (some (⟨b, s, t⟩ :: l))) = outs (locT V δi δo sz (some (⟨b, s, t⟩ :: l))))
    (hA : ip2 = true → inpl = true ∧ (a : ℤ) * s = (a : ℤ) * t) (hB : ip2 = false → inpl = false ∨ pairs (some (⟨b, s, t⟩ :: l)) = 0) :
    GOK K sz (some (⟨a + b, s, t⟩ :: l)) δi δo inpl nd
      (fun I O st => g (I + (a : ℤ) * s) (O + (a : ℤ) * t) (f I O st)) := by
  have := GOK_pieces (K := K) (sz := sz) (δi := δi) (δo := δo) (inpl := inpl) (nd := nd) (m := 2)
    (voff := fun i => if i = 0 then (0, 0) else ((a : ℤ) * s, (a : ℤ) * t))
    (vecs := fun i => if i = 0 then some (⟨a, s, t⟩ :: l) else some (⟨b, s, t⟩ :: l)) (vec := some (⟨a + b, s, t⟩ :: l))
    (ip := fun i => if i = 0 then inpl else ip2) (f := fun i => if i = 0 then f else g) ?_ ?_ ?_ ?_ ?_
  · refine this.congr fun I O st => ?_
    simp
  · rw [pairs_concat]
    rw [show (Multiset.range 2) = {0} + {1} from rfl, Multiset.add_bind]
    simp only [Multiset.singleton_bind, if_true, one_ne_zero, if_false]
    rw [show ((0, 0) : ℤ × ℤ) = 0 from rfl]; simp
  · intro i hi
    by_cases h : i = 0 <;> simp only [h, if_true, if_false] <;> assumption
  · intro i hi h
    by_cases h0 : i = 0
    · simp only [h0, if_true] at h ⊢; exact ⟨h, trivial⟩
    · simp only [h0, if_false] at h ⊢; exact hA h
  · intro i hi h
    by_cases h0 : i = 0
    · simp only [h0, if_true] at h ⊢; exact Or.inl h
    · simp only [h0, if_false] at h ⊢; exact hB h
  · intro h i hi
    by_cases h0 : i = 0
    · simp only [h0, if_true]; exact h1 h
    · simp only [h0, if_false]; exact h2 h

end FFTW.Spec
