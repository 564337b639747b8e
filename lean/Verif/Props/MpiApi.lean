import Verif.Proofs.MpiApi5
import Verif.Props.MpiDft

/-!
# C58: the MPI interface for complex DFTs
-/

namespace FFTW.Props
open Tensor Spec RdftS FFTW.Mpi Planner

section
variable [CLib]

theorem guru_inv {dims : List ADim} {howmany : ℤ} {I O : ℕ → Ptr} {comm : Comm} {bwd : Bool} {flags : MFlags} {space : ℕ → ℕ} {p : MDftP}
    (hp : planGuruDft dims howmany I O comm bwd flags space = some p) :
    dims ≠ [] ∧ (∀ d ∈ dims, 0 ≤ d.ib ∧ 0 ≤ d.ob) ∧ numBlocksTotal (distr .IB (defaultSz dims comm.length)) ≤ comm.length ∧ numBlocksTotal (distr .OB (defaultSz dims comm.length)) ≤ comm.length ∧
      p = mkDft (defaultSz dims comm.length) howmany.toNat I O comm bwd flags space := by
  unfold planGuruDft at hp
  split at hp
  · simp at hp
  rename_i h1
  split at hp
  · simp at hp
  rename_i h2
  simp only at hp
  split at hp
  · simp at hp
  rename_i h3
  push Not at h1 h2 h3
  refine ⟨h1.2, fun d hd => ⟨(h2 d hd).2.1, (h2 d hd).2.2⟩, h3.1, h3.2, (Option.some.inj hp).symm⟩

theorem mkDft_fields (sz : List DDim) (vn : ℕ) (I O : ℕ → Ptr) (comm : Comm) (bwd : Bool) (flags : MFlags) (space : ℕ → ℕ) :
    (mkDft sz vn I O comm bwd flags space).vn = vn ∧ (mkDft sz vn I O comm bwd flags space).I = I ∧ (mkDft sz vn I O comm bwd flags space).O = O ∧
    (mkDft sz vn I O comm bwd flags space).comm = comm ∧ (mkDft sz vn I O comm bwd flags space).bwd = bwd ∧ (mkDft sz vn I O comm bwd flags space).space = space := by
  unfold mkDft
  simp only
  split <;> exact ⟨rfl, rfl, rfl, rfl, rfl, rfl⟩

theorem default_one {d : ADim} {npes : ℕ} (hn : 1 < d.n ∧ d.n < Primes.trialBound) (hi : d.ib = 0) (ho : d.ob = 0) (hp : 0 < npes) :
    ∃ B, defaultSz [d] npes = [⟨d.n.toNat, B, B⟩] ∧ 0 < B ∧ B ≤ d.n.toNat ∧ (B = d.n.toNat → d.n.toNat.Prime ∨ npes ≤ 1) := by
  have e : chosenBlocks npes [(d.n.toNat, 0)] = [pick npes d.n.toNat 0] := chosen_first npes 0 (ns := []) (by omega) (by simp)
  unfold defaultSz
  simp only [List.map_cons, List.map_nil, hi, ho, Int.toNat_zero, e, List.zip_cons_cons, List.zip_nil_right]
  split
  · rename_i x hpr
    refine ⟨d.n.toNat, by rw [List.map_cons, canonical_whole, List.map_nil], by omega, le_rfl, fun _ => .inl ?_⟩
    rw [show ((d.n.toNat : ℕ) : ℤ) = d.n by omega, Primes.isPrime_some (by omega)] at hpr
    have := Option.some.inj hpr
    have := of_decide_eq_true this
    simpa using this
  · have h0 := pick_pos (npes := npes) (n := d.n.toNat) (b := 0) (by omega)
    by_cases h1 : 1 < npes
    · have := pick_lt (n := d.n.toNat) (b := 0) (by omega) h1 (by omega)
      exact ⟨_, by rw [List.map_cons, canonical_of (by omega) h0 this.le h0 this.le, List.map_nil], h0, this.le, fun h => by omega⟩
    · have e2 : pick npes d.n.toNat 0 = d.n.toNat := by unfold pick; rw [if_neg (by omega)]; simp
      rw [e2]
      exact ⟨_, by rw [List.map_cons, canonical_whole, List.map_nil], by omega, le_rfl, fun _ => .inr (by omega)⟩

/-- **C58**.  The user makes a plan with `fftw_mpi_plan_guru_dft`, allocates on every process what `fftw_mpi_local_size_guru` says, and distributes an array `X` as the latter says: the process of
rank `me` stores the elements from `startIn` on, `nIn` of them in each dimension, in row-major order (transposed or scrambled if the flags say so).  Whatever plan the planner makes, and whatever
arrays it is run on: afterwards, the discrete Fourier transform of `X` is distributed over the output arrays in the same way, as `nOut` and `startOut` say; other memory and other processes are left
alone, and so is the input if the planner was told to preserve it. -/
theorem C58_guru_dft {junk : TransP → ℕ → List ℤ} (hj : ∀ p w, (junk p w).length = MpiExchange.nPes p.toProb) {ub : MDftP → MPlan}
    {cexp : ℕ → ℤ → ℝ × ℝ} (hc : ExactCexp cexp) {A : Flags → Problem → Plan → Prop} (hA : ∀ fl x c, Kosher x → A fl x c → FFTW.Sound fl.nd x c)
    {dims : List ADim} {howmany : ℤ} (hh : 0 < howmany) {I0 O0 : ℕ → Ptr} {comm : Comm} (hnd : comm.Nodup) {bwd : Bool} {flags : MFlags} {space : ℕ → ℕ}
    (hn : ∀ d ∈ dims, 1 < d.n ∧ d.n < Primes.trialBound) (hlay : LayoutOk dims comm.length flags)
    (hsp : ∀ me < comm.length, 2 * (localSizeGuru dims howmany.toNat comm.length me bwd flags).alloc ≤ space (comm.at me))
    (hrow : flags.scrambledIn ≠ flags.scrambledOut → ∀ d, dims = [d] → ∀ r m, chooseRadix d.n.toNat comm.length bwd = some (r, m) → ∀ me < comm.length, 2 * (max r m * howmany.toNat) ≤ space (comm.at me))
    (hap : MApart comm space (I0 (comm.at 0) = O0 (comm.at 0)) I0 O0)
    {p : MDftP} (hp : planGuruDft dims howmany I0 O0 comm bwd flags space = some p)
    {fl : Flags} {d : ℕ} {f : MPlan} (hf : MPlans (MpiSolver junk ub cexp) A d fl (.dft p) f)
    {I O : ℕ → Ptr} {st : Dist} (hr : MCompat comm space (I0 (comm.at 0) = O0 (comm.at 0)) I O st) {X : List ℕ → ℕ → ℂ}
    (hX : Holds howmany.toNat comm I st flags.transposedIn (fun me => (localSizeGuru dims howmany.toNat comm.length me bwd flags).nIn)
      (fun me => (localSizeGuru dims howmany.toNat comm.length me bwd flags).startIn) fun q v => X (scrambleIn flags.scrambledIn comm.length bwd (dims.map fun d => d.n.toNat) q) v) :
    MFrame comm space fl.nd I O st (f I O st) ∧
    Holds howmany.toNat comm O (f I O st) flags.transposedOut (fun me => (localSizeGuru dims howmany.toNat comm.length me bwd flags).nOut)
      (fun me => (localSizeGuru dims howmany.toNat comm.length me bwd flags).startOut)
      fun q v => mdft bwd (dims.map fun d => d.n.toNat) (scrambleOut flags.scrambledOut comm.length bwd (dims.map fun d => d.n.toNat) q) fun j => X j v := by
  obtain ⟨hne, hb, hi, ho, rfl⟩ := guru_inv hp
  obtain ⟨f1, f2, f3, f4, f5, f6⟩ := mkDft_fields (defaultSz dims comm.length) howmany.toNat I0 O0 comm bwd flags space
  have f7 : (mkDft (defaultSz dims comm.length) howmany.toNat I0 O0 comm bwd flags space).inpl = (I0 (comm.at 0) = O0 (comm.at 0)) := by unfold MDftP.inpl; rw [f2, f3, f4]
  have hr' : MCompat (mkDft (defaultSz dims comm.length) howmany.toNat I0 O0 comm bwd flags space).comm (mkDft (defaultSz dims comm.length) howmany.toNat I0 O0 comm bwd flags space).space
      (mkDft (defaultSz dims comm.length) howmany.toNat I0 O0 comm bwd flags space).inpl I O st := by rw [f4, f6, f7]; exact hr
  rcases dims with _ | ⟨a, _ | ⟨b, l⟩⟩
  · exact absurd rfl hne
  · -- one dimension
    obtain ⟨l1, l2, l3⟩ := hlay
    have hl : 0 < comm.length := by
      by_contra h0
      have h0 : comm.length = 0 := by omega
      unfold numBlocksTotal distr at hi
      rw [h0] at hi
      have e : defaultSz [a] 0 = [⟨a.n.toNat, a.n.toNat, a.n.toNat⟩] := by
        have := hn a (by simp)
        have e : chosenBlocks 0 [(a.n.toNat, 0)] = [pick 0 a.n.toNat 0] := chosen_first 0 0 (ns := []) (by omega) (by simp)
        unfold defaultSz
        simp only [List.map_cons, List.map_nil, l1, l2, Int.toNat_zero, e, List.zip_cons_cons, List.zip_nil_right]
        have : pick 0 a.n.toNat 0 = a.n.toNat := by simp [pick]
        rw [this]
        split <;> rw [List.map_cons, canonical_whole, List.map_nil]
      rw [e] at hi
      simp only [List.map_cons, List.map_nil, List.prod_cons, List.prod_nil, DDim.b] at hi
      rw [numBlocks_self (by have := hn a (by simp); omega)] at hi
      omega
    obtain ⟨B, e1, e2, e3, e4⟩ := default_one (hn a (by simp)) l1 l2 hl
    have hn1 := (hn a (by simp)).1
    have hpos : 1 < (⟨a.n.toNat, B, B⟩ : DDim).n ∧ 0 < (⟨a.n.toNat, B, B⟩ : DDim).ib ∧ (⟨a.n.toNat, B, B⟩ : DDim).ib ≤ (⟨a.n.toNat, B, B⟩ : DDim).n ∧ 0 < (⟨a.n.toNat, B, B⟩ : DDim).ob ∧
        (⟨a.n.toNat, B, B⟩ : DDim).ob ≤ (⟨a.n.toNat, B, B⟩ : DDim).n := ⟨by show 1 < a.n.toNat; omega, e2, e3, e2, e3⟩
    rw [e1] at hf hr' hi ho f1 f2 f3 f4 f5 f6 f7
    have hmk := mkDft_single hpos howmany.toNat I0 O0 comm bwd flags space
    generalize hpp : mkDft [(⟨a.n.toNat, B, B⟩ : DDim)] howmany.toNat I0 O0 comm bwd flags space = p at hf hr' f1 f2 f3 f4 f5 f6 f7 hmk
    have f8 : p.flags = flags := by rw [hmk]
    have m : Made1 p a.n.toNat B := by
      refine ⟨by rw [hmk], hpos.1, ⟨e2, e3⟩, by rw [f8]; exact l3, ?_, by rw [f4]; exact e4, by rw [f1]; omega⟩
      rw [f4]
      simpa [numBlocksTotal, distr, DDim.b] using hi
    have g := m.guru (d := a) (by rw [f4]; exact e1)
    rw [f1, f4, f5, f8] at g
    have ok : p.Ok fl := by
      refine m.ok (by rw [f4]; exact hnd) (by rw [f4, f6, f7, f2, f3]; exact hap) ?_ ?_ fl
      · intro me hme
        rw [f4] at hme
        have := hsp me hme
        rw [g me] at this
        rw [f6, f4, f1]
        exact this
      · intro hs r m hrm me hme
        rw [f8] at hs
        rw [f4, f5] at hrm
        rw [f4] at hme
        rw [f6, f4, f1]
        exact hrow hs a rfl r m hrm me hme
    have key := C57_distributed_dft hj hc hA ok hf hr'
    have hbp := m.bIn_pos
    have tI : flags.transposedIn = false := by
      unfold MFlags.onlyScrambled at l3
      cases hh : flags.transposedIn
      · rfl
      · simp [hh] at l3
    have tO : flags.transposedOut = false := by
      unfold MFlags.onlyScrambled at l3
      cases hh : flags.transposedOut
      · rfl
      · simp [hh] at l3
    have hns : (p.sz.map fun d => d.n) = [a.n.toNat] := by rw [hmk]; rfl
    rw [f1, f4, f5, hns, f6] at key
    rw [f4] at hbp
    simp only [g, tI] at hX
    simp only [g, tO]
    refine ⟨key.1, (simple_one _ _).write ?_⟩
    intro j hj v hv
    cases hj with
    | @cons q _ _ _ hq hnil =>
    cases hnil
    have k2 := key.2 (scrambleOut flags.scrambledOut comm.length bwd [a.n.toNat] [q]) (by
      have := m.ltOut hq
      rwa [f8, f4, f5] at this) v hv
    have k3 := m.outAt hq
    rw [f8, f4, f5] at k3
    rw [k3] at k2
    refine k2.trans ?_
    refine mdft_congr bwd (by
      have := m.ltOut hq
      rwa [f8, f4, f5] at this) fun j hj => ?_
    cases hj with
    | @cons j _ _ _ hj hnil =>
    cases hnil
    obtain ⟨q', hq', hs⟩ := m.onto hj
    have k4 := m.inAt hq'
    rw [hs] at k4
    rw [k4]
    have := (simple_one _ _).read hbp.1 hbp.2.2.1 hX (index1 hq') hv
    rw [f8, f4, f5] at hs
    refine this.trans ?_
    show X (scrambleIn flags.scrambledIn comm.length bwd [a.n.toNat] [q']) v = _
    rw [hs]
  · -- more
    obtain ⟨a', b', l', e1, e2, L⟩ := lay_of (fun d hd => (hn d hd).1) hb hlay hi ho
    have m := made L e1 hlay.1 rfl rfl howmany.toNat I0 O0 comm bwd space
    rw [e1] at hi ho
    generalize hpp : mkDft (defaultSz (a :: b :: l) comm.length) howmany.toNat I0 O0 comm bwd flags space = p at hf hr' f1 f2 f3 f4 f5 f6 f7 m
    have g : ∀ me, localSizeGuru (a :: b :: l) howmany.toNat comm.length me bwd flags =
        ⟨max (if isBlock1d (distr .IB (a' :: b' :: l')) && isBlock1d (distr .OB (a' :: b' :: l')) then extraMulti (a' :: b' :: l') howmany.toNat comm.length me else 1)
          (max (localSizes me (distr .IB (a' :: b' :: l'))).1.prod (localSizes me (distr .OB (a' :: b' :: l'))).1.prod) * howmany.toNat,
          (localSizes me (distr .IB (a' :: b' :: l'))).1, (localSizes me (distr .IB (a' :: b' :: l'))).2, (localSizes me (distr .OB (a' :: b' :: l'))).1, (localSizes me (distr .OB (a' :: b' :: l'))).2⟩ := by
      intro me
      unfold localSizeGuru
      rw [if_neg (by simp), e1]
      rfl
    have ok : p.Ok fl := by
      refine m.ok L (by rw [f4]) (by rw [f4]; exact hnd) (by rw [f1]; omega) (by rw [f4, f6, f7, f2, f3]; exact hap) hi ho ?_ fl
      intro me hme
      have := hsp me hme
      rw [g me] at this
      rw [f6, f4, f1]
      exact this
    have key := C57_distributed_dft hj hc hA ok hf hr'
    rw [f1, f4, f5, m.ns, f6] at key
    have sI : ∀ (ns q : List ℕ) scr, ns.length ≠ 1 → scrambleIn scr comm.length bwd ns q = q := by
      intro ns q scr h
      unfold scrambleIn
      split
      · simp at h
      · rfl
    have sO : ∀ (ns q : List ℕ) scr, ns.length ≠ 1 → scrambleOut scr comm.length bwd ns q = q := by
      intro ns q scr h
      unfold scrambleOut
      split
      · simp at h
      · rfl
    have hl2 : ((a :: b :: l).map fun d => d.n.toNat).length ≠ 1 := by simp
    have SI := L.simple .IB flags.transposedIn rfl
    have SO := L.simple .OB flags.transposedOut rfl
    simp only [g, sI _ _ _ hl2] at hX
    simp only [g, sO _ _ _ hl2]
    rw [holds_flip fun me => (sizes_len _ _).2.trans (sizes_len _ _).1.symm] at hX ⊢
    have hpin : 0 < (fst' flags.transposedIn a' b').ib := by cases flags.transposedIn; exact L.posA.2.1; exact L.posB.2.1
    have hnbi : numBlocks (fst' flags.transposedIn a' b').n (fst' flags.transposedIn a' b').ib ≤ comm.length := by
      refine le_trans ?_ hi
      have posL : ∀ e ∈ a' :: b' :: l', 0 < numBlocks e.n (e.b .IB) := by
        intro e he
        simp only [List.mem_cons] at he
        rcases he with rfl | rfl | he
        · exact numBlocks_pos (by have := L.posA.1; omega) L.posA.2.1
        · exact numBlocks_pos (by have := L.posB.1; omega) L.posB.2.1
        · obtain ⟨q1, q2, q3⟩ := L.posL e he
          exact numBlocks_pos (by omega) (show 0 < e.ib by omega)
      unfold numBlocksTotal distr
      rw [List.map_map]
      refine List.single_le_prod (fun x hx => ?_) _ (List.mem_map.2 ⟨fst' flags.transposedIn a' b', ?_, rfl⟩)
      · obtain ⟨e, he, rfl⟩ := List.mem_map.1 hx
        exact posL e he
      · unfold fst'
        split <;> simp
    have hne' : ∀ t : Bool, (fst' t a' b').n :: (snd' t a' b').n :: l'.map DDim.n = flip2 t ((a :: b :: l).map fun d => d.n.toNat) := by
      intro t
      rw [← e2]
      cases t <;> rfl
    refine ⟨key.1, SO.write ?_⟩
    intro j hj v hv
    rw [hne'] at hj
    have hk : Index ((a :: b :: l).map fun d => d.n.toNat) (flip2 flags.transposedOut j) := by have := index_flip flags.transposedOut hj; rwa [flip2_flip2] at this
    have k2 := key.2 (flip2 flags.transposedIn (flip2 flags.transposedOut j)) (by rw [e2]; exact index_flip _ hk) v hv
    rw [m.outAt L, flip2_flip2] at k2
    refine k2.trans ?_
    rw [e2, ← mdft_flip bwd flags.transposedIn hk]
    refine mdft_congr bwd (index_flip _ hk) fun j hj => ?_
    rw [m.inAt L]
    exact SI.read hpin hnbi hX (by rw [hne']; exact hj) hv

/-! ### the simple interfaces, more than one dimension -/

theorem scramble_long {ns q : List ℕ} (h : ns.length ≠ 1) (scr : Bool) (npes : ℕ) (bwd : Bool) : scrambleIn scr npes bwd ns q = q ∧ scrambleOut scr npes bwd ns q = q := by
  constructor
  · unfold scrambleIn
    split
    · simp at h
    · rfl
  · unfold scrambleOut
    split
    · simp at h
    · rfl

/-- what `local_size_guru` says, in terms of the distributed dimension only -/
theorem guru_layout {a b : ADim} {l : List ADim} {howmany : ℤ} {I O : ℕ → Ptr} {comm : Comm} {bwd : Bool} {flags : MFlags} {space : ℕ → ℕ} {p : MDftP}
    (hn : ∀ d ∈ a :: b :: l, 1 < d.n) (hlay : LayoutOk (a :: b :: l) comm.length flags) (hp : planGuruDft (a :: b :: l) howmany I O comm bwd flags space = some p) :
    ∃ a' b' l', defaultSz (a :: b :: l) comm.length = a' :: b' :: l' ∧ distr .IB l' = distr .OB l' ∧
      (∀ {vn : ℕ} {P : ℕ → Ptr} {st : Dist} {X : List ℕ → ℕ → ℂ} (bw : Bool) (fl : MFlags),
        (Holds vn comm P st flags.transposedIn (fun me => (localSizeGuru (a :: b :: l) howmany.toNat comm.length me bw fl).nIn) (fun me => (localSizeGuru (a :: b :: l) howmany.toNat comm.length me bw fl).startIn) X ↔
          if flags.transposedIn then
            Holds vn comm P st true (fun me => a.n.toNat :: (localSizeGuru (a :: b :: l) howmany.toNat comm.length me bw fl).nIn.getD 1 0 :: l.map fun d => d.n.toNat)
              (fun me => 0 :: (localSizeGuru (a :: b :: l) howmany.toNat comm.length me bw fl).startIn.getD 1 0 :: l.map fun _ => 0) X
          else Holds vn comm P st false (fun me => (localSizeGuru (a :: b :: l) howmany.toNat comm.length me bw fl).nIn.getD 0 0 :: b.n.toNat :: l.map fun d => d.n.toNat)
              (fun me => (localSizeGuru (a :: b :: l) howmany.toNat comm.length me bw fl).startIn.getD 0 0 :: 0 :: l.map fun _ => 0) X) ∧
        (Holds vn comm P st flags.transposedOut (fun me => (localSizeGuru (a :: b :: l) howmany.toNat comm.length me bw fl).nOut) (fun me => (localSizeGuru (a :: b :: l) howmany.toNat comm.length me bw fl).startOut) X ↔
          if flags.transposedOut then
            Holds vn comm P st true (fun me => a.n.toNat :: (localSizeGuru (a :: b :: l) howmany.toNat comm.length me bw fl).nOut.getD 1 0 :: l.map fun d => d.n.toNat)
              (fun me => 0 :: (localSizeGuru (a :: b :: l) howmany.toNat comm.length me bw fl).startOut.getD 1 0 :: l.map fun _ => 0) X
          else Holds vn comm P st false (fun me => (localSizeGuru (a :: b :: l) howmany.toNat comm.length me bw fl).nOut.getD 0 0 :: b.n.toNat :: l.map fun d => d.n.toNat)
              (fun me => (localSizeGuru (a :: b :: l) howmany.toNat comm.length me bw fl).startOut.getD 0 0 :: 0 :: l.map fun _ => 0) X)) := by
  obtain ⟨_, hb, hi, ho, _⟩ := guru_inv hp
  obtain ⟨a', b', l', e1, e2, L⟩ := lay_of hn hb hlay hi ho
  have eA : a'.n = a.n.toNat := by simp at e2; exact e2.1
  have eB : b'.n = b.n.toNat := by simp at e2; exact e2.2.1
  have eL : l'.map DDim.n = l.map fun d => d.n.toNat := by simp only [List.map_cons, List.cons.injEq] at e2; exact e2.2.2
  have eZ : (l.map fun d => d.n.toNat).map (fun _ => 0) = l.map fun _ => 0 := by rw [List.map_map]; rfl
  refine ⟨a', b', l', e1, by rw [dist_whole L.posL, dist_whole L.posL], ?_⟩
  intro vn P st X bw fl
  simp only [guru_long _ e1 (by simp)]
  have SI := L.simple .IB flags.transposedIn rfl
  have SO := L.simple .OB flags.transposedOut rfl
  constructor
  · cases hT : flags.transposedIn with
    | false =>
      rw [hT] at SI
      refine (holds_first SI).trans ?_
      simp only [flip2, Bool.false_eq_true, if_false, snd', eB, eL, eZ, List.map_cons]
    | true =>
      rw [hT] at SI
      refine (holds_second SI).trans ?_
      simp only [if_true, snd', eA, eL, eZ]
  · cases hT : flags.transposedOut with
    | false =>
      rw [hT] at SO
      refine (holds_first SO).trans ?_
      simp only [flip2, Bool.false_eq_true, if_false, snd', eB, eL, eZ, List.map_cons]
    | true =>
      rw [hT] at SO
      refine (holds_second SO).trans ?_
      simp only [if_true, snd', eA, eL, eZ]

section
variable {junk : TransP → ℕ → List ℤ} (hj : ∀ p w, (junk p w).length = MpiExchange.nPes p.toProb) {ub : MDftP → MPlan}
  {cexp : ℕ → ℤ → ℝ × ℝ} (hc : ExactCexp cexp) {A : Flags → Problem → Plan → Prop} (hA : ∀ fl x c, Kosher x → A fl x c → FFTW.Sound fl.nd x c)
  {n0 n1 : ℤ} {rest : List ℤ} (hn : ∀ n ∈ n0 :: n1 :: rest, 1 < n ∧ n < Primes.trialBound)
  {howmany : ℤ} (hh : 0 < howmany) {I0 O0 : ℕ → Ptr} {comm : Comm} (hnd : comm.Nodup) {bwd : Bool} {space : ℕ → ℕ}
  (hap : MApart comm space (I0 (comm.at 0) = O0 (comm.at 0)) I0 O0)
  {fl : Flags} {d : ℕ} {f : MPlan} {I O : ℕ → Ptr} {st : Dist} (hr : MCompat comm space (I0 (comm.at 0) = O0 (comm.at 0)) I O st) {X : List ℕ → ℕ → ℂ}

include hj hc hA hn hh hnd hap hr

omit hn in
/-- multi-dimensional transforms: the layout in terms of the distributed dimension only -/
theorem many_core {ia oa ib ob : ℤ} (hn : ∀ n ∈ n0 :: n1 :: rest, 1 < n ∧ n < Primes.trialBound) {flags : MFlags} (hlay : LayoutOk (⟨n0, ia, oa⟩ :: ⟨n1, ib, ob⟩ :: simpleDims rest) comm.length flags)
    (hsc : flags.scrambledIn = flags.scrambledOut) {bw : Bool} {fl' : MFlags} {L : ℕ → LocalSize} (hL : ∀ me, localSizeGuru (⟨n0, ia, oa⟩ :: ⟨n1, ib, ob⟩ :: simpleDims rest) howmany.toNat comm.length me bw fl' = L me)
    (hsp : ∀ me < comm.length, 2 * (L me).alloc ≤ space (comm.at me))
    {p : MDftP} (hp : planGuruDft (⟨n0, ia, oa⟩ :: ⟨n1, ib, ob⟩ :: simpleDims rest) howmany I0 O0 comm bwd flags space = some p) (hf : MPlans (MpiSolver junk ub cexp) A d fl (.dft p) f)
    (hX : if flags.transposedIn then
            Holds howmany.toNat comm I st true (fun me => n0.toNat :: (L me).nIn.getD 1 0 :: rest.map Int.toNat) (fun me => 0 :: (L me).startIn.getD 1 0 :: rest.map fun _ => 0) X
          else Holds howmany.toNat comm I st false (fun me => (L me).nIn.getD 0 0 :: n1.toNat :: rest.map Int.toNat) (fun me => (L me).startIn.getD 0 0 :: 0 :: rest.map fun _ => 0) X) :
    MFrame comm space fl.nd I O st (f I O st) ∧
    if flags.transposedOut then
      Holds howmany.toNat comm O (f I O st) true (fun me => n0.toNat :: (L me).nOut.getD 1 0 :: rest.map Int.toNat) (fun me => 0 :: (L me).startOut.getD 1 0 :: rest.map fun _ => 0)
        fun k v => mdft bwd ((n0 :: n1 :: rest).map Int.toNat) k fun j => X j v
    else Holds howmany.toNat comm O (f I O st) false (fun me => (L me).nOut.getD 0 0 :: n1.toNat :: rest.map Int.toNat) (fun me => (L me).startOut.getD 0 0 :: 0 :: rest.map fun _ => 0)
        fun k v => mdft bwd ((n0 :: n1 :: rest).map Int.toNat) k fun j => X j v := by
  have mem : ∀ d ∈ (⟨n0, ia, oa⟩ : ADim) :: ⟨n1, ib, ob⟩ :: simpleDims rest, d.n ∈ n0 :: n1 :: rest := by
    intro d hd
    simp only [List.mem_cons, simpleDims, List.mem_map] at hd
    rcases hd with rfl | rfl | ⟨n, hn, rfl⟩
    · simp
    · simp
    · simp [hn]
  have hnD : ∀ d ∈ (⟨n0, ia, oa⟩ : ADim) :: ⟨n1, ib, ob⟩ :: simpleDims rest, 1 < d.n ∧ d.n < Primes.trialBound := fun d hd => hn _ (mem d hd)
  obtain ⟨a', b', l', g1, g2, g3⟩ := guru_layout (fun d hd => (hnD d hd).1) hlay hp
  have g4 : ∀ me, localSizeGuru (⟨n0, ia, oa⟩ :: ⟨n1, ib, ob⟩ :: simpleDims rest) howmany.toNat comm.length me bwd flags = L me := by
    intro me
    rw [← hL, guru_long _ g1 (by simp), guru_long _ g1 (by simp)]
  have ens : ((⟨n0, ia, oa⟩ : ADim) :: ⟨n1, ib, ob⟩ :: simpleDims rest).map (fun d => d.n.toNat) = (n0 :: n1 :: rest).map Int.toNat := by
    simp [simpleDims, List.map_map, Function.comp_def]
  have er : (simpleDims rest).map (fun d => d.n.toNat) = rest.map Int.toNat := by simp [simpleDims, List.map_map, Function.comp_def]
  have ez : (simpleDims rest).map (fun _ => 0) = rest.map fun _ => 0 := by rw [simpleDims, List.map_map]; rfl
  have key := C58_guru_dft hj hc hA hh hnd hnD hlay (fun me hme => by rw [g4]; exact hsp me hme) (fun h => absurd hsc h) hap hp hf hr (X := X) (by
    simp only [(scramble_long (show (((⟨n0, ia, oa⟩ : ADim) :: ⟨n1, ib, ob⟩ :: simpleDims rest).map fun d => d.n.toNat).length ≠ 1 by simp) _ _ _).1]
    refine (g3 bwd flags).1.2 ?_
    simp only [g4, er, ez]
    exact hX)
  refine ⟨key.1, ?_⟩
  have k2 := key.2
  simp only [(scramble_long (show (((⟨n0, ia, oa⟩ : ADim) :: ⟨n1, ib, ob⟩ :: simpleDims rest).map fun d => d.n.toNat).length ≠ 1 by simp) _ _ _).2, ens] at k2
  have k3 := (g3 bwd flags).2.1 k2
  simp only [g4, er, ez] at k3
  exact k3

omit hj hc hA hn hh hnd hap hr in
theorem simple_lay (l : List ℤ) : ∀ d ∈ simpleDims l, d.ib = d.n ∧ d.ob = d.n := by
  intro d hd
  obtain ⟨n, _, rfl⟩ := List.mem_map.1 hd
  exact ⟨rfl, rfl⟩

/-- **C58**: `fftw_mpi_plan_many_dft` without flags, on arrays of the size `fftw_mpi_local_size_many` says, with the same block size.  If the process of rank `me` has the rows from `x_start` on,
`nx` of them, it has the same rows of the transform afterwards. -/
theorem C58_plan_many_dft {block : ℤ} (hb : block < n0)
    (hsp : ∀ me < comm.length, 2 * (localSizeMany (n0 :: n1 :: rest) howmany.toNat block comm.length me).1 ≤ space (comm.at me))
    {p : MDftP} (hp : planManyDft (n0 :: n1 :: rest) howmany block block I0 O0 comm bwd {} space = some p) (hf : MPlans (MpiSolver junk ub cexp) A d fl (.dft p) f)
    (hX : Holds howmany.toNat comm I st false (fun me => (localSizeMany (n0 :: n1 :: rest) howmany.toNat block comm.length me).2.1 :: n1.toNat :: rest.map Int.toNat)
      (fun me => (localSizeMany (n0 :: n1 :: rest) howmany.toNat block comm.length me).2.2 :: 0 :: rest.map fun _ => 0) X) :
    MFrame comm space fl.nd I O st (f I O st) ∧
    Holds howmany.toNat comm O (f I O st) false (fun me => (localSizeMany (n0 :: n1 :: rest) howmany.toNat block comm.length me).2.1 :: n1.toNat :: rest.map Int.toNat)
      (fun me => (localSizeMany (n0 :: n1 :: rest) howmany.toNat block comm.length me).2.2 :: 0 :: rest.map fun _ => 0)
      fun k v => mdft bwd ((n0 :: n1 :: rest).map Int.toNat) k fun j => X j v := by
  have e2 : manyTransposedDims (n0 :: n1 :: rest) block n1 = ⟨n0, block, block⟩ :: ⟨n1, n1, n1⟩ :: simpleDims rest := by
    show (if n1 < n1 then _ else _) = _
    rw [if_neg (lt_irrefl _)]
    rfl
  have e3 : ∀ me, localSizeMany (n0 :: n1 :: rest) howmany.toNat block comm.length me =
      ((localSizeGuru (⟨n0, block, block⟩ :: ⟨n1, n1, n1⟩ :: simpleDims rest) howmany.toNat comm.length me false {}).alloc,
        (localSizeGuru (⟨n0, block, block⟩ :: ⟨n1, n1, n1⟩ :: simpleDims rest) howmany.toNat comm.length me false {}).nIn.getD 0 0,
        (localSizeGuru (⟨n0, block, block⟩ :: ⟨n1, n1, n1⟩ :: simpleDims rest) howmany.toNat comm.length me false {}).startIn.getD 0 0) := by
    intro me
    unfold localSizeMany localSizeManyTransposed
    rw [show (if (n0 :: n1 :: rest).length > 1 then (n0 :: n1 :: rest).getD 1 0 else 0) = n1 by simp, e2]
  have hp : planGuruDft (⟨n0, block, block⟩ :: ⟨n1, n1, n1⟩ :: simpleDims rest) howmany I0 O0 comm bwd {} space = some p := hp
  have hlay : LayoutOk (⟨n0, block, block⟩ :: ⟨n1, n1, n1⟩ :: simpleDims rest) comm.length {} := ⟨rfl, .inr ⟨simple_lay rest, ⟨rfl, hb⟩, ⟨rfl, hb⟩⟩⟩
  have hnD : ∀ d ∈ (⟨n0, block, block⟩ : ADim) :: ⟨n1, n1, n1⟩ :: simpleDims rest, 1 < d.n := by
    intro d hd
    simp only [List.mem_cons, simpleDims, List.mem_map] at hd
    rcases hd with rfl | rfl | ⟨n, hn', rfl⟩
    · exact (hn n0 (by simp)).1
    · exact (hn n1 (by simp)).1
    · exact (hn n (by simp [hn'])).1
  obtain ⟨a', b', l', g1, g2, g3⟩ := guru_layout hnD hlay hp
  have inout : ∀ me, (localSizeGuru (⟨n0, block, block⟩ :: ⟨n1, n1, n1⟩ :: simpleDims rest) howmany.toNat comm.length me false {}).nOut =
      (localSizeGuru (⟨n0, block, block⟩ :: ⟨n1, n1, n1⟩ :: simpleDims rest) howmany.toNat comm.length me false {}).nIn ∧
      (localSizeGuru (⟨n0, block, block⟩ :: ⟨n1, n1, n1⟩ :: simpleDims rest) howmany.toNat comm.length me false {}).startOut =
      (localSizeGuru (⟨n0, block, block⟩ :: ⟨n1, n1, n1⟩ :: simpleDims rest) howmany.toNat comm.length me false {}).startIn := by
    intro me
    have h1 : ((⟨n0, block, block⟩ : ADim) :: ⟨n1, n1, n1⟩ :: simpleDims rest).map ADim.exch = ⟨n0, block, block⟩ :: ⟨n1, n1, n1⟩ :: simpleDims rest := by
      simp only [List.map_cons, simpleDims, List.map_map]
      rfl
    have := exch_guru g1 (by simp) g2 howmany.toNat me false false {} {}
    rw [h1] at this
    exact ⟨(congrArg LocalSize.nIn this).symm, (congrArg LocalSize.startIn this).symm⟩
  simp only [e3] at hsp hX ⊢
  have key := many_core hj hc hA hh hnd hap hr hn hlay rfl (bw := false) (fl' := {}) (fun _ => rfl) hsp hp hf hX
  simp only [inout] at key
  exact key

/-- **C58**: `fftw_mpi_plan_many_dft` with `FFTW_MPI_TRANSPOSED_OUT`, on arrays of the size `fftw_mpi_local_size_many_transposed` says.  The process of rank `me` has the rows from `x_start` on,
`nx` of them, before, and the columns from `y_start` on, `ny` of them, stored by columns, afterwards. -/
theorem C58_transposed_out {xblock yblock : ℤ} (hx : xblock < n0) (hy : yblock < n1)
    (hsp : ∀ me < comm.length, 2 * (localSizeManyTransposed (n0 :: n1 :: rest) howmany.toNat xblock yblock comm.length me).1 ≤ space (comm.at me))
    {p : MDftP} (hp : planManyDft (n0 :: n1 :: rest) howmany xblock yblock I0 O0 comm bwd { transposedOut := true } space = some p) (hf : MPlans (MpiSolver junk ub cexp) A d fl (.dft p) f)
    (hX : Holds howmany.toNat comm I st false (fun me => (localSizeManyTransposed (n0 :: n1 :: rest) howmany.toNat xblock yblock comm.length me).2.1 :: n1.toNat :: rest.map Int.toNat)
      (fun me => (localSizeManyTransposed (n0 :: n1 :: rest) howmany.toNat xblock yblock comm.length me).2.2.1 :: 0 :: rest.map fun _ => 0) X) :
    MFrame comm space fl.nd I O st (f I O st) ∧
    Holds howmany.toNat comm O (f I O st) true (fun me => n0.toNat :: (localSizeManyTransposed (n0 :: n1 :: rest) howmany.toNat xblock yblock comm.length me).2.2.2.1 :: rest.map Int.toNat)
      (fun me => 0 :: (localSizeManyTransposed (n0 :: n1 :: rest) howmany.toNat xblock yblock comm.length me).2.2.2.2 :: rest.map fun _ => 0)
      fun k v => mdft bwd ((n0 :: n1 :: rest).map Int.toNat) k fun j => X j v := by
  have e2 : manyTransposedDims (n0 :: n1 :: rest) xblock yblock = ⟨n0, xblock, n0⟩ :: ⟨n1, n1, yblock⟩ :: simpleDims rest := by
    show (if yblock < n1 then _ else _) = _
    rw [if_pos hy]
    rfl
  have hlay : LayoutOk (⟨n0, xblock, n0⟩ :: ⟨n1, n1, yblock⟩ :: simpleDims rest) comm.length { transposedOut := true } := ⟨rfl, .inr ⟨simple_lay rest, ⟨rfl, hx⟩, ⟨rfl, hy⟩⟩⟩
  unfold localSizeManyTransposed at hsp hX ⊢
  simp only [e2, show (n0 :: n1 :: rest).length > 1 from by simp, if_true] at hsp hX ⊢
  exact many_core hj hc hA hh hnd hap hr hn hlay rfl (bw := false) (fl' := {}) (fun _ => rfl) hsp hp hf hX

/-- **C58**: with `FFTW_MPI_TRANSPOSED_IN` it is the other way round. -/
theorem C58_transposed_in {xblock yblock : ℤ} (hx : xblock < n0) (hy : yblock < n1)
    (hsp : ∀ me < comm.length, 2 * (localSizeManyTransposed (n0 :: n1 :: rest) howmany.toNat xblock yblock comm.length me).1 ≤ space (comm.at me))
    {p : MDftP} (hp : planManyDft (n0 :: n1 :: rest) howmany yblock xblock I0 O0 comm bwd { transposedIn := true } space = some p) (hf : MPlans (MpiSolver junk ub cexp) A d fl (.dft p) f)
    (hX : Holds howmany.toNat comm I st true (fun me => n0.toNat :: (localSizeManyTransposed (n0 :: n1 :: rest) howmany.toNat xblock yblock comm.length me).2.2.2.1 :: rest.map Int.toNat)
      (fun me => 0 :: (localSizeManyTransposed (n0 :: n1 :: rest) howmany.toNat xblock yblock comm.length me).2.2.2.2 :: rest.map fun _ => 0) X) :
    MFrame comm space fl.nd I O st (f I O st) ∧
    Holds howmany.toNat comm O (f I O st) false (fun me => (localSizeManyTransposed (n0 :: n1 :: rest) howmany.toNat xblock yblock comm.length me).2.1 :: n1.toNat :: rest.map Int.toNat)
      (fun me => (localSizeManyTransposed (n0 :: n1 :: rest) howmany.toNat xblock yblock comm.length me).2.2.1 :: 0 :: rest.map fun _ => 0)
      fun k v => mdft bwd ((n0 :: n1 :: rest).map Int.toNat) k fun j => X j v := by
  have e2 : manyTransposedDims (n0 :: n1 :: rest) xblock yblock = ⟨n0, xblock, n0⟩ :: ⟨n1, n1, yblock⟩ :: simpleDims rest := by
    show (if yblock < n1 then _ else _) = _
    rw [if_pos hy]
    rfl
  have hlay : LayoutOk (⟨n0, n0, xblock⟩ :: ⟨n1, yblock, n1⟩ :: simpleDims rest) comm.length { transposedIn := true } := ⟨rfl, .inr ⟨simple_lay rest, ⟨rfl, hy⟩, ⟨rfl, hx⟩⟩⟩
  have hp : planGuruDft (⟨n0, n0, xblock⟩ :: ⟨n1, yblock, n1⟩ :: simpleDims rest) howmany I0 O0 comm bwd { transposedIn := true } space = some p := hp
  have hnD : ∀ d ∈ (⟨n0, n0, xblock⟩ : ADim) :: ⟨n1, yblock, n1⟩ :: simpleDims rest, 1 < d.n := by
    intro d hd
    simp only [List.mem_cons, simpleDims, List.mem_map] at hd
    rcases hd with rfl | rfl | ⟨n, hn', rfl⟩
    · exact (hn n0 (by simp)).1
    · exact (hn n1 (by simp)).1
    · exact (hn n (by simp [hn'])).1
  obtain ⟨a', b', l', g1, g2, g3⟩ := guru_layout hnD hlay hp
  have hex : ((⟨n0, xblock, n0⟩ : ADim) :: ⟨n1, n1, yblock⟩ :: simpleDims rest) = ((⟨n0, n0, xblock⟩ : ADim) :: ⟨n1, yblock, n1⟩ :: simpleDims rest).map ADim.exch := by
    simp only [List.map_cons, simpleDims, List.map_map]
    rfl
  have g4 := fun me => exch_guru g1 (by simp) g2 howmany.toNat me false false {} {}
  rw [← hex] at g4
  unfold localSizeManyTransposed at hsp hX ⊢
  simp only [e2, show (n0 :: n1 :: rest).length > 1 from by simp, if_true, g4] at hsp hX ⊢
  exact many_core hj hc hA hh hnd hap hr hn hlay rfl (bw := false) (fl' := {}) (fun _ => rfl) hsp hp hf hX

end

/-! ### one dimension -/

/-- **C58**: `fftw_mpi_plan_many_dft` in one dimension (in particular `fftw_mpi_plan_dft_1d`), on arrays of the size `fftw_mpi_local_size_many_1d` says.  `scrambleIn` and `scrambleOut` are the
identity unless the flags ask for a scrambled order. -/
theorem C58_plan_1d {junk : TransP → ℕ → List ℤ} (hj : ∀ p w, (junk p w).length = MpiExchange.nPes p.toProb) {ub : MDftP → MPlan}
    {cexp : ℕ → ℤ → ℝ × ℝ} (hc : ExactCexp cexp) {A : Flags → Problem → Plan → Prop} (hA : ∀ fl x c, Kosher x → A fl x c → FFTW.Sound fl.nd x c)
    {n howmany : ℤ} (hn : 1 < n ∧ n < Primes.trialBound) (hh : 0 < howmany) {I0 O0 : ℕ → Ptr} {comm : Comm} (hnd : comm.Nodup) {bwd : Bool} {flags : MFlags} (hfl : flags.onlyScrambled = true) {space : ℕ → ℕ}
    (hsp : ∀ me < comm.length, 2 * (localSizeMany1d n howmany.toNat comm.length me bwd flags).alloc ≤ space (comm.at me))
    (hrow : flags.scrambledIn ≠ flags.scrambledOut → ∀ r m, chooseRadix n.toNat comm.length bwd = some (r, m) → ∀ me < comm.length, 2 * (max r m * howmany.toNat) ≤ space (comm.at me))
    (hap : MApart comm space (I0 (comm.at 0) = O0 (comm.at 0)) I0 O0)
    {p : MDftP} (hp : planManyDft [n] howmany 0 0 I0 O0 comm bwd flags space = some p)
    {fl : Flags} {d : ℕ} {f : MPlan} (hf : MPlans (MpiSolver junk ub cexp) A d fl (.dft p) f)
    {I O : ℕ → Ptr} {st : Dist} (hr : MCompat comm space (I0 (comm.at 0) = O0 (comm.at 0)) I O st) {X : List ℕ → ℕ → ℂ}
    (hX : Holds howmany.toNat comm I st false (fun me => (localSizeMany1d n howmany.toNat comm.length me bwd flags).nIn) (fun me => (localSizeMany1d n howmany.toNat comm.length me bwd flags).startIn)
      fun q v => X (scrambleIn flags.scrambledIn comm.length bwd [n.toNat] q) v) :
    MFrame comm space fl.nd I O st (f I O st) ∧
    Holds howmany.toNat comm O (f I O st) false (fun me => (localSizeMany1d n howmany.toNat comm.length me bwd flags).nOut) (fun me => (localSizeMany1d n howmany.toNat comm.length me bwd flags).startOut)
      fun q v => mdft bwd [n.toNat] (scrambleOut flags.scrambledOut comm.length bwd [n.toNat] q) fun j => X j v := by
  have tI : flags.transposedIn = false := by
    unfold MFlags.onlyScrambled at hfl
    cases hh : flags.transposedIn
    · rfl
    · simp [hh] at hfl
  have tO : flags.transposedOut = false := by
    unfold MFlags.onlyScrambled at hfl
    cases hh : flags.transposedOut
    · rfl
    · simp [hh] at hfl
  have key := C58_guru_dft hj hc hA (dims := [⟨n, 0, 0⟩]) hh hnd (by simpa using hn) ⟨rfl, rfl, hfl⟩ hsp (by
    intro h d hd r m
    obtain rfl : (⟨n, 0, 0⟩ : ADim) = d := by simpa using hd
    exact hrow h r m) hap hp hf hr (X := X) (by rw [tI]; exact hX)
  rw [tO] at key
  exact key

/-! ### the way back -/

/-- input and output exchanged -/
def exchFlags (f : MFlags) : MFlags := ⟨f.scrambledOut, f.scrambledIn, f.transposedOut, f.transposedIn, f.bigvecOnly⟩

theorem radix_swap (n npes : ℕ) (bwd : Bool) : chooseRadix n npes (!bwd) = (chooseRadix n npes bwd).map Prod.swap := by
  unfold chooseRadix
  simp only
  split
  · rfl
  · cases bwd <;> rfl

theorem scramble_swap (scr : Bool) (npes : ℕ) (bwd : Bool) (ns q : List ℕ) : scrambleIn scr npes (!bwd) ns q = scrambleOut scr npes bwd ns q := by
  rcases ns with _ | ⟨n, _ | ⟨b, ns⟩⟩
  · rfl
  · rcases q with _ | ⟨q, _ | ⟨q2, l⟩⟩
    · rfl
    · simp only [scrambleIn, scrambleOut, radix_swap]
      rcases chooseRadix n npes bwd with _ | ⟨r, m⟩ <;> rfl
    · rfl
  · rfl

/-- **C58**: the layout of the output is the layout of the input of the opposite transform, and the same allocation is good for both -/
theorem C58_layouts_match {dims : List ADim} {howmany : ℤ} {I O : ℕ → Ptr} {comm : Comm} {bwd : Bool} {flags : MFlags} {space : ℕ → ℕ} {p : MDftP}
    (hn : ∀ d ∈ dims, 1 < d.n) (hlay : LayoutOk dims comm.length flags) (hp : planGuruDft dims howmany I O comm bwd flags space = some p) (me : ℕ) :
    let x := localSizeGuru dims howmany.toNat comm.length me bwd flags
    localSizeGuru (dims.map ADim.exch) howmany.toNat comm.length me (!bwd) (exchFlags flags) = ⟨x.alloc, x.nOut, x.startOut, x.nIn, x.startIn⟩ := by
  intro x
  obtain ⟨hne, hb, hi, ho, _⟩ := guru_inv hp
  rcases dims with _ | ⟨a, _ | ⟨b, l⟩⟩
  · exact absurd rfl hne
  · obtain ⟨l1, l2, l3⟩ := hlay
    have e : [a].map ADim.exch = [a] := by
      obtain ⟨n, ib, ob⟩ := a
      simp only at l1 l2
      subst l1 l2
      rfl
    have tb : flags.transposedIn = false ∧ flags.transposedOut = false ∧ flags.bigvecOnly = false := by
      unfold MFlags.onlyScrambled at l3
      simp at l3
      exact ⟨l3.1.1, l3.1.2, l3.2⟩
    have ef : (exchFlags flags = {}) ↔ flags = {} := by
      obtain ⟨f1, f2, f3, f4, f5⟩ := flags
      simp only [exchFlags, MFlags.mk.injEq]
      tauto
    have eb : ∃ n B, defaultSz [a] comm.length = [⟨n, B, B⟩] := by
      unfold defaultSz
      have e : ∀ b, ∃ c, chosenBlocks comm.length [(a.n.toNat, b)] = [c] := by
        intro b
        unfold chosenBlocks
        simp only [List.map_cons, List.map_nil, defaultBlocks]
        by_cases hb0 : b = 0
        · by_cases h2 : List.length comm / numBlocksTotal [(a.n.toNat, a.n.toNat)] > 1
          · exact ⟨_, by rw [if_pos hb0, if_pos ⟨h2, hb0⟩]⟩
          · exact ⟨_, by rw [if_pos hb0, if_neg fun h => h2 h.1]⟩
        · exact ⟨_, by rw [if_neg hb0, if_neg fun h => hb0 h.2]⟩
      obtain ⟨c, hc⟩ := e 0
      simp only [List.map_cons, List.map_nil, l1, l2, Int.toNat_zero, hc, List.zip_cons_cons, List.zip_nil_right]
      split
      · exact ⟨_, _, by rw [List.map_cons, List.map_nil]; rfl⟩
      · exact ⟨_, _, by rw [List.map_cons, List.map_nil]; rfl⟩
    obtain ⟨n, B, eb⟩ := eb
    show localSizeGuru ([a].map ADim.exch) _ _ _ _ _ = ⟨(localSizeGuru [a] howmany.toNat comm.length me bwd flags).alloc, (localSizeGuru [a] howmany.toNat comm.length me bwd flags).nOut,
      (localSizeGuru [a] howmany.toNat comm.length me bwd flags).startOut, (localSizeGuru [a] howmany.toNat comm.length me bwd flags).nIn, (localSizeGuru [a] howmany.toNat comm.length me bwd flags).startIn⟩
    rw [e]
    unfold localSizeGuru
    simp only [eb, ef, List.cons_ne_nil, if_false, radix_swap]
    split
    · rfl
    · rcases hr : chooseRadix n comm.length bwd with _ | ⟨r, m⟩
      · rfl
      · obtain ⟨si, so, f3, f4, f5⟩ := flags
        simp only [Option.map_some, Prod.swap, exchFlags, distr, DDim.b, List.map_cons, List.map_nil]
        cases si <;> cases so <;> simp only [Bool.false_eq_true, if_false, if_true]
        all_goals
          generalize defaultBlock m comm.length = mb
          generalize defaultBlock r comm.length = rb
          (simp only [Nat.mul_comm mb r, Nat.mul_comm m rb, LocalSize.mk.injEq, and_true]) <;> (congr 1 <;> omega)
  · obtain ⟨a', b', l', g1, g2, g3⟩ := guru_layout hn hlay hp
    exact exch_guru g1 (by simp) g2 _ _ _ _ _ _

theorem layout_exch {dims : List ADim} {npes : ℕ} {flags : MFlags} (h : LayoutOk dims npes flags) : LayoutOk (dims.map ADim.exch) npes (exchFlags flags) := by
  rcases dims with _ | ⟨a, _ | ⟨b, l⟩⟩
  · trivial
  · refine ⟨h.2.1, h.1, ?_⟩
    have := h.2.2
    unfold MFlags.onlyScrambled at this ⊢
    simp only [exchFlags]
    rw [Bool.and_comm (!flags.transposedOut)]
    exact this
  · refine ⟨?_, ?_⟩
    · have := h.1
      unfold MFlags.onlyTransposed at this ⊢
      simp only [exchFlags]
      rw [Bool.and_comm (!flags.scrambledOut)]
      exact this
    · rcases h.2 with h1 | ⟨h1, h2, h3⟩
      · exact .inl h1
      · refine .inr ⟨?_, h3, h2⟩
        intro d hd
        obtain ⟨e, he, rfl⟩ := List.mem_map.1 hd
        exact ⟨(h1 e he).2, (h1 e he).1⟩

theorem sizes_index (D : List (ℕ × ℕ)) : ∀ (cs : List ℕ), cs.length = D.length → ∀ l, Index ((D.zip cs).map fun x => Mpi.block x.1.1 x.1.2 x.2) l →
    Index (D.map Prod.fst) (List.zipWith (· + ·) ((D.zip cs).map fun x => x.2 * x.1.2) l) := by
  induction D with
  | nil =>
    intro cs _ l h
    cases h
    exact .nil
  | cons d D ih =>
    intro cs hcs l h
    rcases cs with _ | ⟨c, cs⟩
    · simp at hcs
    · simp only [List.zip_cons_cons, List.map_cons] at h ⊢
      cases h with
      | @cons l0 _ ls _ h0 h =>
        exact .cons (block_global h0).1 (ih cs (by simpa using hcs) ls h)

theorem local_in {me : ℕ} {D : List (ℕ × ℕ)} (hD : D ≠ []) {l : List ℕ} (h : Index (localSizes me D).1 l) : Index (D.map Prod.fst) (List.zipWith (· + ·) (localSizes me D).2 l) := by
  unfold localSizes at h ⊢
  split at h
  · exfalso
    rcases D with _ | ⟨d, D⟩
    · exact hD rfl
    · cases h with | cons h0 _ => exact absurd h0 (by simp)
  · rw [if_neg (by assumption)]
    exact sizes_index D _ (coords_len _ _) _ h

/-- the elements the processes hold are elements of the array -/
theorem local_index {dims : List ADim} {howmany : ℤ} {I O : ℕ → Ptr} {comm : Comm} {bwd : Bool} {flags : MFlags} {space : ℕ → ℕ} {p : MDftP}
    (hn : ∀ d ∈ dims, 1 < d.n) (hlay : LayoutOk dims comm.length flags) (hp : planGuruDft dims howmany I O comm bwd flags space = some p) {me : ℕ} {l : List ℕ}
    (hl : Index (localSizeGuru dims howmany.toNat comm.length me bwd flags).nIn l) :
    Index (dims.map fun d => d.n.toNat) (scrambleIn flags.scrambledIn comm.length bwd (dims.map fun d => d.n.toNat)
      (List.zipWith (· + ·) (localSizeGuru dims howmany.toNat comm.length me bwd flags).startIn l)) := by
  obtain ⟨hne, hb, hi, ho, _⟩ := guru_inv hp
  rcases dims with _ | ⟨a, _ | ⟨b, ls⟩⟩
  · exact absurd rfl hne
  · obtain ⟨l1, l2, l3⟩ := hlay
    have hn0 : 0 < a.n.toNat := by have := hn a (by simp); omega
    have key : ∃ B, (localSizeGuru [a] howmany.toNat comm.length me bwd flags).nIn = (localSizes me [(a.n.toNat, B)]).1 ∧
        (localSizeGuru [a] howmany.toNat comm.length me bwd flags).startIn = (localSizes me [(a.n.toNat, B)]).2 := by
      have eb : ∃ B, defaultSz [a] comm.length = [⟨a.n.toNat, B, B⟩] := by
        unfold defaultSz
        have e : ∃ c, chosenBlocks comm.length [(a.n.toNat, 0)] = [c] := ⟨_, chosen_first comm.length 0 (ns := []) hn0 (by simp)⟩
        obtain ⟨c, hc⟩ := e
        simp only [List.map_cons, List.map_nil, l1, l2, Int.toNat_zero, hc, List.zip_cons_cons, List.zip_nil_right]
        split
        · exact ⟨_, by rw [List.map_cons, List.map_nil]; rfl⟩
        · exact ⟨_, by rw [List.map_cons, List.map_nil]; rfl⟩
      obtain ⟨B, eb⟩ := eb
      unfold localSizeGuru
      simp only [eb, List.cons_ne_nil, if_false]
      split
      · exact ⟨_, rfl, rfl⟩
      · split
        · exact ⟨_, rfl, rfl⟩
        · exact ⟨_, rfl, rfl⟩
    obtain ⟨B, e1, e2⟩ := key
    rw [e1] at hl
    rw [e2]
    have h := local_in (by simp) hl
    simp only [List.map_cons, List.map_nil] at h ⊢
    generalize List.zipWith (fun x1 x2 => x1 + x2) (localSizes me [(a.n.toNat, B)]).2 l = z at h ⊢
    cases h with
    | @cons q _ _ _ hq h =>
    cases h
    rcases hr : chooseRadix a.n.toNat comm.length bwd with _ | ⟨r, m⟩
    · simp only [scrambleIn, hr]
      exact index1 hq
    · simp only [scrambleIn, hr]
      split
      · have hrm := chooseRadix_spec hn0 hr
        refine index1 ?_
        have := (mix (q := q) (r := r) (m := m) (by rw [hrm.1]; exact hq)).2.2
        rwa [hrm.1] at this
      · exact index1 hq
  · obtain ⟨a', b', l', e1, e2, L⟩ := lay_of hn hb hlay hi ho
    rw [(scramble_long (by simp) _ _ _).1]
    simp only [guru_long _ e1 (by simp)] at hl ⊢
    have := local_in (by simp [distr]) hl
    rw [← e2]
    have e3 : (distr .IB (a' :: b' :: l')).map Prod.fst = (a' :: b' :: l').map DDim.n := by
      unfold distr
      rw [List.map_map]
      rfl
    rw [e3] at this
    exact this

/-- **C58**: a transform of either sign, and then the other one, made with input and output exchanged (`TRANSPOSED_IN` for `TRANSPOSED_OUT`, `SCRAMBLED_IN` for `SCRAMBLED_OUT`): the processes have
the original array, multiplied by the number of its elements, in the original layout.  The first plan was made for `I0`, `O0` and is run on `I`, `O`; the second was made for `I0'`, `O0'` and is run
on `O`, `J`. -/
theorem C58_roundtrip {junk : TransP → ℕ → List ℤ} (hj : ∀ p w, (junk p w).length = MpiExchange.nPes p.toProb) {ub : MDftP → MPlan}
    {cexp : ℕ → ℤ → ℝ × ℝ} (hc : ExactCexp cexp) {A : Flags → Problem → Plan → Prop} (hA : ∀ fl x c, Kosher x → A fl x c → FFTW.Sound fl.nd x c)
    {dims : List ADim} {howmany : ℤ} (hh : 0 < howmany) {I0 O0 I0' O0' : ℕ → Ptr} {comm : Comm} (hnd : comm.Nodup) {bwd : Bool} {flags : MFlags} {space : ℕ → ℕ}
    (hn : ∀ d ∈ dims, 1 < d.n ∧ d.n < Primes.trialBound) (hlay : LayoutOk dims comm.length flags)
    (hsp : ∀ me < comm.length, 2 * (localSizeGuru dims howmany.toNat comm.length me bwd flags).alloc ≤ space (comm.at me))
    (hrow : flags.scrambledIn ≠ flags.scrambledOut → ∀ d, dims = [d] → ∀ r m, chooseRadix d.n.toNat comm.length bwd = some (r, m) → ∀ me < comm.length, 2 * (max r m * howmany.toNat) ≤ space (comm.at me))
    (hap : MApart comm space (I0 (comm.at 0) = O0 (comm.at 0)) I0 O0) (hap' : MApart comm space (I0' (comm.at 0) = O0' (comm.at 0)) I0' O0')
    {p p' : MDftP} (hp : planGuruDft dims howmany I0 O0 comm bwd flags space = some p) (hp' : planGuruDft (dims.map ADim.exch) howmany I0' O0' comm (!bwd) (exchFlags flags) space = some p')
    {fl fl' : Flags} {d d' : ℕ} {f f' : MPlan} (hf : MPlans (MpiSolver junk ub cexp) A d fl (.dft p) f) (hf' : MPlans (MpiSolver junk ub cexp) A d' fl' (.dft p') f')
    {I O J : ℕ → Ptr} {st : Dist} (hr : MCompat comm space (I0 (comm.at 0) = O0 (comm.at 0)) I O st) (hr' : MCompat comm space (I0' (comm.at 0) = O0' (comm.at 0)) O J (f I O st)) {X : List ℕ → ℕ → ℂ}
    (hX : Holds howmany.toNat comm I st flags.transposedIn (fun me => (localSizeGuru dims howmany.toNat comm.length me bwd flags).nIn)
      (fun me => (localSizeGuru dims howmany.toNat comm.length me bwd flags).startIn) fun q v => X (scrambleIn flags.scrambledIn comm.length bwd (dims.map fun d => d.n.toNat) q) v) :
    Holds howmany.toNat comm J (f' O J (f I O st)) flags.transposedIn (fun me => (localSizeGuru dims howmany.toNat comm.length me bwd flags).nIn)
      (fun me => (localSizeGuru dims howmany.toNat comm.length me bwd flags).startIn)
      fun q v => (((dims.map fun d => d.n.toNat).prod : ℕ) : ℂ) * X (scrambleIn flags.scrambledIn comm.length bwd (dims.map fun d => d.n.toNat) q) v := by
  have hm := C58_layouts_match (fun d hd => (hn d hd).1) hlay hp
  have en : (dims.map ADim.exch).map (fun d => d.n.toNat) = dims.map fun d => d.n.toNat := by rw [List.map_map]; rfl
  have k1 := C58_guru_dft hj hc hA hh hnd hn hlay hsp hrow hap hp hf hr hX
  have k2 := C58_guru_dft hj hc hA (dims := dims.map ADim.exch) (flags := exchFlags flags) hh hnd (by
      intro d hd
      obtain ⟨e, he, rfl⟩ := List.mem_map.1 hd
      exact hn e he) (layout_exch hlay) (fun me hme => by rw [hm]; exact hsp me hme) (by
      intro h e he r m hrm me hme
      obtain ⟨e', l, rfl⟩ : ∃ e' l, dims = e' :: l := by
        rcases dims with _ | ⟨e', l⟩
        · simp at he
        · exact ⟨e', l, rfl⟩
      rw [List.map_cons, List.cons.injEq] at he
      have hl : l = [] := by simpa using he.2
      subst hl
      rw [radix_swap, Option.map_eq_some_iff] at hrm
      obtain ⟨⟨m', r'⟩, h1, h2⟩ := hrm
      cases h2
      rw [max_comm]
      exact hrow (fun h' => h h'.symm) e' rfl m' r' (by
        rw [← he.1] at h1
        exact h1) me hme) hap' hp' hf' hr' (X := fun k v => mdft bwd (dims.map fun d => d.n.toNat) k fun j => X j v) (by
      simp only [hm, en, scramble_swap]
      exact k1.2)
  have k3 := k2.2
  simp only [hm, en] at k3
  intro me hme l hl v hv
  refine (k3 me hme l hl v hv).trans ?_
  beta_reduce
  rw [show scrambleOut (exchFlags flags).scrambledOut comm.length (!bwd) (dims.map fun d => d.n.toNat) = scrambleIn flags.scrambledIn comm.length bwd (dims.map fun d => d.n.toNat) by
    funext q
    rw [← scramble_swap, Bool.not_not]; rfl]
  exact mdft_inv bwd (local_index (fun d hd => (hn d hd).1) hlay hp hl) fun j => X j v

/-- **C58** with the solvers of the library on the processes: every solver descriptor of the serial planner is one the library registers -/
theorem C58_library {cexp : ℕ → ℤ → ℝ × ℝ} (hc : ExactCexp cexp) {mp : Genfft.Magic} (hmp : Props.MagicOk mp) {szR : ℕ} {env : Env}
    (he : ∀ d ∈ env.slvdescs, Registered.Library cexp mp szR d.slv) {junk : TransP → ℕ → List ℤ} (hj : ∀ p w, (junk p w).length = MpiExchange.nPes p.toProb) {ub : MDftP → MPlan}
    {dims : List ADim} {howmany : ℤ} (hh : 0 < howmany) {I0 O0 : ℕ → Ptr} {comm : Comm} (hnd : comm.Nodup) {bwd : Bool} {flags : MFlags} {space : ℕ → ℕ}
    (hn : ∀ d ∈ dims, 1 < d.n ∧ d.n < Primes.trialBound) (hlay : LayoutOk dims comm.length flags)
    (hsp : ∀ me < comm.length, 2 * (localSizeGuru dims howmany.toNat comm.length me bwd flags).alloc ≤ space (comm.at me))
    (hrow : flags.scrambledIn ≠ flags.scrambledOut → ∀ d, dims = [d] → ∀ r m, chooseRadix d.n.toNat comm.length bwd = some (r, m) → ∀ me < comm.length, 2 * (max r m * howmany.toNat) ≤ space (comm.at me))
    (hap : MApart comm space (I0 (comm.at 0) = O0 (comm.at 0)) I0 O0)
    {p : MDftP} (hp : planGuruDft dims howmany I0 O0 comm bwd flags space = some p)
    {fl : Flags} {d : ℕ} {f : MPlan} (hf : MPlans (MpiSolver junk ub cexp) (SerialPlans env) d fl (.dft p) f)
    {I O : ℕ → Ptr} {st : Dist} (hr : MCompat comm space (I0 (comm.at 0) = O0 (comm.at 0)) I O st) {X : List ℕ → ℕ → ℂ}
    (hX : Holds howmany.toNat comm I st flags.transposedIn (fun me => (localSizeGuru dims howmany.toNat comm.length me bwd flags).nIn)
      (fun me => (localSizeGuru dims howmany.toNat comm.length me bwd flags).startIn) fun q v => X (scrambleIn flags.scrambledIn comm.length bwd (dims.map fun d => d.n.toNat) q) v) :
    MFrame comm space fl.nd I O st (f I O st) ∧
    Holds howmany.toNat comm O (f I O st) flags.transposedOut (fun me => (localSizeGuru dims howmany.toNat comm.length me bwd flags).nOut)
      (fun me => (localSizeGuru dims howmany.toNat comm.length me bwd flags).startOut)
      fun q v => mdft bwd (dims.map fun d => d.n.toNat) (scrambleOut flags.scrambledOut comm.length bwd (dims.map fun d => d.n.toNat) q) fun j => X j v :=
  C58_guru_dft hj hc (serialPlans_sound fun dd hd => Registered.C04_library hc hmp szR _ (he dd hd)) hh hnd hn hlay hsp hrow hap hp hf hr hX

end

/-! ### non-vacuity: the 3 × 3 transform on three processes of Props/MpiDft, as the user makes it -/

attribute [local instance] sortLib

theorem exDft_user : planManyDft [3, 3] 1 0 0 (fun _ => ⟨0, 0⟩) (fun _ => ⟨0, 0⟩) [0, 1, 2] true { transposedOut := true } (fun _ => 6) = some exDft := by
  with_unfolding_all rfl

theorem exDft_alloc : ∀ me < 3, localSizeManyTransposed [3, 3] 1 0 0 3 me = (3, 1, me, 1, me) := by decide

example (ub : MDftP → MPlan) (fl : Flags) (st : Dist) (h : ∀ w, (⟨0, 0⟩ : Ptr).blk < (st w).next) (X : List ℕ → ℕ → ℂ)
    (hX : Holds 1 [0, 1, 2] (fun _ => ⟨0, 0⟩) st false (fun _ => [1, 3]) (fun me => [me, 0]) X) :
    ∃ f : MPlan, Holds 1 [0, 1, 2] (fun _ => ⟨0, 0⟩) (f (fun _ => ⟨0, 0⟩) (fun _ => ⟨0, 0⟩) st) true (fun _ => [3, 1]) (fun me => [0, me]) fun k v => mdft true [3, 3] k fun j => X j v := by
  obtain ⟨f, hf⟩ := exDft_plan Registered.exCexp ub fl
  refine ⟨f, ?_⟩
  have key := C58_transposed_out (junk := exJunk) (fun p w => by simp [exJunk]) Registered.exCexp_exact (exB_sound Registered.exCexp_exact) (n0 := 3) (n1 := 3) (rest := []) (by decide +kernel) (howmany := 1) (by decide)
    (comm := [0, 1, 2]) (by decide) (bwd := true) (space := fun _ => 6) (exDft_ok fl).apart (I := fun _ => ⟨0, 0⟩) (O := fun _ => ⟨0, 0⟩) (st := st) (X := X)
    ⟨fun w _ => h w, fun w _ => h w, fun _ _ _ => rfl, fun h => absurd rfl h⟩ (xblock := 0) (yblock := 0) (by decide) (by decide) (by decide) exDft_user hf (by
      intro me hme l hl v hv
      have := exDft_alloc me hme
      have e := hX me hme l
      beta_reduce at hl ⊢
      change Index ((localSizeManyTransposed [3, 3] 1 0 0 3 me).2.1 :: _) l at hl
      change cplx _ _ _ _ (_, rowPos (flip2 false ((localSizeManyTransposed [3, 3] 1 0 0 3 me).2.1 :: _)) _) _ = X (List.zipWith _ ((localSizeManyTransposed [3, 3] 1 0 0 3 me).2.2.1 :: _) _) _
      rw [this] at hl ⊢
      exact e hl v hv)
  intro me hme l hl v hv
  have := exDft_alloc me hme
  have e := key.2 me hme l
  beta_reduce at e
  change Index (_ :: (localSizeManyTransposed [3, 3] 1 0 0 3 me).2.2.2.1 :: _) l → ∀ v < 1, cplx _ _ _ _ (_, rowPos (flip2 true (_ :: (localSizeManyTransposed [3, 3] 1 0 0 3 me).2.2.2.1 :: _)) _) _ =
    mdft _ _ (List.zipWith _ (_ :: (localSizeManyTransposed [3, 3] 1 0 0 3 me).2.2.2.2 :: _) _) _ at e
  rw [this] at e
  exact e hl v hv

/-- six elements on two processes in one dimension: `(r, m) = (3, 2)`, scrambled output in blocks of 3 -/
example : ∃ p, planManyDft [6] 1 0 0 (fun _ => ⟨0, 0⟩) (fun _ => ⟨0, 0⟩) [0, 1] false { scrambledOut := true } (fun _ => 12) = some p ∧
    chooseRadix 6 2 false = some (3, 2) ∧ ∀ me < 2, (localSizeMany1d 6 1 2 me false { scrambledOut := true }).nOut = [3] := by
  have h6 : ¬ Primes.isPrime 6 = some true := by
    rw [Primes.isPrime_some (by norm_num)]
    simpa using (by norm_num : ¬ Nat.Prime 6)
  have hd : defaultSz [⟨6, 0, 0⟩] 2 = [⟨6, 3, 3⟩] := by
    unfold defaultSz
    simp only [List.map_cons, List.map_nil, show chosenBlocks 2 [((6 : ℤ).toNat, (0 : ℤ).toNat)] = [3] from rfl, List.zip_cons_cons, List.zip_nil_right]
    rw [show (((6 : ℤ).toNat : ℕ) : ℤ) = 6 from rfl, if_neg h6]
    rfl
  refine ⟨mkDft [⟨6, 3, 3⟩] 1 (fun _ => ⟨0, 0⟩) (fun _ => ⟨0, 0⟩) [0, 1] false { scrambledOut := true } (fun _ => 12), ?_, rfl, ?_⟩
  · show planGuruDft [⟨6, 0, 0⟩] 1 _ _ _ _ _ _ = _
    unfold planGuruDft
    rw [if_neg (by decide), if_neg (by decide)]
    simp only [show List.length [0, 1] = 2 from rfl, hd]
    rfl
  · intro me hme
    unfold localSizeMany1d localSizeGuru
    rw [if_neg (by simp), hd]
    interval_cases me <;> rfl

end FFTW.Props
