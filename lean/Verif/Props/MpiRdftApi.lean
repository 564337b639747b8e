import Verif.Props.MpiRdft
import Verif.Props.MpiApi

/-!
# C62, the simple and advanced interfaces
-/

namespace FFTW.Props
open Tensor Spec RdftS FFTW.Mpi

section
variable [CLib]

theorem holdsR_first {n b : ℕ} {ns : List ℕ} {sz start : ℕ → List ℕ} (h : Simple n b ns sz start) {vn : ℕ} {comm : Comm} {P : ℕ → Ptr} {st : Dist} {X : List ℕ → ℕ → ℝ} :
    HoldsR vn comm P st false sz start X ↔ HoldsR vn comm P st false (fun me => (sz me).getD 0 0 :: ns) (fun me => (start me).getD 0 0 :: ns.map fun _ => 0) X := by
  refine forall₂_congr fun me _ => ?_
  beta_reduce
  by_cases hlt : me < numBlocks n b
  · obtain ⟨e1, e2⟩ := h.lt me hlt
    rw [e1, e2]
    rfl
  · obtain ⟨m, e⟩ := h.ge me (by omega)
    rw [e]
    constructor
    · intro _ l hl
      cases hl with | cons h0 _ => exact absurd h0 (by simp)
    · intro _ l hl
      cases hl with | cons h0 _ => exact absurd h0 (by simp)

theorem holdsR_second {n b n' : ℕ} {ns : List ℕ} {sz start : ℕ → List ℕ} (h : Simple n b (n' :: ns) (fun me => flip2 true (sz me)) (fun me => flip2 true (start me))) {vn : ℕ} {comm : Comm} {P : ℕ → Ptr}
    {st : Dist} {X : List ℕ → ℕ → ℝ} :
    HoldsR vn comm P st true sz start X ↔ HoldsR vn comm P st true (fun me => n' :: (sz me).getD 1 0 :: ns) (fun me => 0 :: (start me).getD 1 0 :: ns.map fun _ => 0) X := by
  refine forall₂_congr fun me _ => ?_
  beta_reduce
  by_cases hlt : me < numBlocks n b
  · obtain ⟨e1, e2⟩ := h.lt me hlt
    beta_reduce at e1 e2
    have e1 : sz me = n' :: block n b me :: ns := by rw [← flip2_flip2 true (sz me), e1]; rfl
    have e2 : start me = 0 :: me * b :: ns.map fun _ => 0 := by rw [← flip2_flip2 true (start me), e2]; rfl
    rw [e1, e2]
    rfl
  · obtain ⟨m, e⟩ := h.ge me (by omega)
    beta_reduce at e
    have e : sz me = flip2 true (0 :: m) := by rw [← e, flip2_flip2]
    rw [e]
    rcases m with _ | ⟨m0, m⟩
    · constructor
      · intro _ l hl
        cases hl with | cons _ h1 => cases h1 with | cons h1 _ => exact absurd h1 (by simp [flip2, swap2])
      · intro _ l hl
        cases hl with | cons h0 _ => exact absurd h0 (by simp)
    · constructor
      · intro _ l hl
        cases hl with | cons _ h1 => cases h1 with | cons h1 _ => exact absurd h1 (by simp [flip2, swap2])
      · intro _ l hl
        cases hl with | cons _ h1 => cases h1 with | cons h1 _ => exact absurd h1 (by simp)

/-- what `local_size_guru` says, in terms of the distributed dimension only -/
theorem guruR_layout {a b : ADim} {l : List ADim} {howmany : ℤ} {I O : ℕ → Ptr} {comm : Comm} {kinds : List R2rKind} {flags : MFlags} {space : ℕ → ℕ} {p : MRdftP}
    (hn : ∀ d ∈ a :: b :: l, 1 < d.n) (hlay : LayoutOk (a :: b :: l) comm.length flags) (hp : planGuruR2r (a :: b :: l) howmany I O comm kinds flags space = some p) :
    ∃ a' b' l', defaultSz (a :: b :: l) comm.length = a' :: b' :: l' ∧ distr .IB l' = distr .OB l' ∧
      (∀ {vn : ℕ} {P : ℕ → Ptr} {st : Dist} {X : List ℕ → ℕ → ℝ} (bw : Bool) (fl : MFlags),
        (HoldsR vn comm P st flags.transposedIn (fun me => (localSizeGuru (a :: b :: l) howmany.toNat comm.length me bw fl).nIn) (fun me => (localSizeGuru (a :: b :: l) howmany.toNat comm.length me bw fl).startIn) X ↔
          if flags.transposedIn then
            HoldsR vn comm P st true (fun me => a.n.toNat :: (localSizeGuru (a :: b :: l) howmany.toNat comm.length me bw fl).nIn.getD 1 0 :: l.map fun d => d.n.toNat)
              (fun me => 0 :: (localSizeGuru (a :: b :: l) howmany.toNat comm.length me bw fl).startIn.getD 1 0 :: l.map fun _ => 0) X
          else HoldsR vn comm P st false (fun me => (localSizeGuru (a :: b :: l) howmany.toNat comm.length me bw fl).nIn.getD 0 0 :: b.n.toNat :: l.map fun d => d.n.toNat)
              (fun me => (localSizeGuru (a :: b :: l) howmany.toNat comm.length me bw fl).startIn.getD 0 0 :: 0 :: l.map fun _ => 0) X) ∧
        (HoldsR vn comm P st flags.transposedOut (fun me => (localSizeGuru (a :: b :: l) howmany.toNat comm.length me bw fl).nOut) (fun me => (localSizeGuru (a :: b :: l) howmany.toNat comm.length me bw fl).startOut) X ↔
          if flags.transposedOut then
            HoldsR vn comm P st true (fun me => a.n.toNat :: (localSizeGuru (a :: b :: l) howmany.toNat comm.length me bw fl).nOut.getD 1 0 :: l.map fun d => d.n.toNat)
              (fun me => 0 :: (localSizeGuru (a :: b :: l) howmany.toNat comm.length me bw fl).startOut.getD 1 0 :: l.map fun _ => 0) X
          else HoldsR vn comm P st false (fun me => (localSizeGuru (a :: b :: l) howmany.toNat comm.length me bw fl).nOut.getD 0 0 :: b.n.toNat :: l.map fun d => d.n.toNat)
              (fun me => (localSizeGuru (a :: b :: l) howmany.toNat comm.length me bw fl).startOut.getD 0 0 :: 0 :: l.map fun _ => 0) X)) := by
  obtain ⟨_, hb, hi, ho, _⟩ := guruR_inv hp
  obtain ⟨a', b', l', e1, e2, L⟩ := lay_of hn hb hlay hi ho
  have eA : a'.n = a.n.toNat := by simp at e2; exact e2.1
  have eB : b'.n = b.n.toNat := by simp at e2; exact e2.2.1
  have eL : l'.map DDim.n = l.map fun d => d.n.toNat := by simp only [List.map_cons, List.cons.injEq] at e2; exact e2.2.2
  have eZ : (l.map fun d => d.n.toNat).map (fun _ => 0) = l.map fun _ => 0 := by rw [List.map_map]; rfl
  refine ⟨a', b', l', e1, by rw [dist_whole L.posL, dist_whole L.posL], ?_⟩
  intro vn P st X bw fl
  simp only [guru_long _ e1 (by simp)]
  have SI := L.simple .IB flags.transposedIn rfl
  have SO := L.simple .OB flags.transposedOut rfl
  constructor
  · cases hT : flags.transposedIn with
    | false =>
      rw [hT] at SI
      refine (holdsR_first SI).trans ?_
      simp only [flip2, Bool.false_eq_true, if_false, snd', eB, eL, eZ, List.map_cons]
    | true =>
      rw [hT] at SI
      refine (holdsR_second SI).trans ?_
      simp only [if_true, snd', eA, eL, eZ]
  · cases hT : flags.transposedOut with
    | false =>
      rw [hT] at SO
      refine (holdsR_first SO).trans ?_
      simp only [flip2, Bool.false_eq_true, if_false, snd', eB, eL, eZ, List.map_cons]
    | true =>
      rw [hT] at SO
      refine (holdsR_second SO).trans ?_
      simp only [if_true, snd', eA, eL, eZ]

section
variable {junk : TransP → ℕ → List ℤ} (hj : ∀ p w, (junk p w).length = MpiExchange.nPes p.toProb) {ub : MDftP → MPlan}
  {cexp : ℕ → ℤ → ℝ × ℝ} (hc : ExactCexp cexp) {A : Flags → Problem → Plan → Prop} (hA : ∀ fl x c, Kosher x → A fl x c → FFTW.Sound fl.nd x c)
  {n0 n1 : ℤ} {rest : List ℤ} (hn : ∀ n ∈ n0 :: n1 :: rest, 1 < n)
  {howmany : ℤ} (hh : 0 < howmany) {I0 O0 : ℕ → Ptr} {comm : Comm} (hnd : comm.Nodup) {kinds : List R2rKind} (hkl : kinds.length = (n0 :: n1 :: rest).length) {space : ℕ → ℕ}
  (hap : MApart comm space (I0 (comm.at 0) = O0 (comm.at 0)) I0 O0)
  {fl : Flags} {d : ℕ} {f : MPlan} {I O : ℕ → Ptr} {st : Dist} (hr : MCompat comm space (I0 (comm.at 0) = O0 (comm.at 0)) I O st) {X : List ℕ → ℕ → ℝ}

include hj hc hA hn hh hnd hkl hap hr

omit hn in
/-- multi-dimensional transforms: the layout in terms of the distributed dimension only -/
theorem manyR_core {ia oa ib ob : ℤ} (hn : ∀ n ∈ n0 :: n1 :: rest, 1 < n) {flags : MFlags} (hlay : LayoutOk (⟨n0, ia, oa⟩ :: ⟨n1, ib, ob⟩ :: simpleDims rest) comm.length flags)
    {bw : Bool} {fl' : MFlags} {L : ℕ → LocalSize} (hL : ∀ me, localSizeGuru (⟨n0, ia, oa⟩ :: ⟨n1, ib, ob⟩ :: simpleDims rest) howmany.toNat comm.length me bw fl' = L me)
    (hsp : ∀ me < comm.length, (L me).alloc ≤ space (comm.at me))
    {p : MRdftP} (hp : planGuruR2r (⟨n0, ia, oa⟩ :: ⟨n1, ib, ob⟩ :: simpleDims rest) howmany I0 O0 comm kinds flags space = some p) (hf : MPlans (MpiSolver junk ub cexp) A d fl (.rdft p) f)
    (hX : if flags.transposedIn then
            HoldsR howmany.toNat comm I st true (fun me => n0.toNat :: (L me).nIn.getD 1 0 :: rest.map Int.toNat) (fun me => 0 :: (L me).startIn.getD 1 0 :: rest.map fun _ => 0) X
          else HoldsR howmany.toNat comm I st false (fun me => (L me).nIn.getD 0 0 :: n1.toNat :: rest.map Int.toNat) (fun me => (L me).startIn.getD 0 0 :: 0 :: rest.map fun _ => 0) X) :
    MFrame comm space fl.nd I O st (f I O st) ∧
    if flags.transposedOut then
      HoldsR howmany.toNat comm O (f I O st) true (fun me => n0.toNat :: (L me).nOut.getD 1 0 :: rest.map Int.toNat) (fun me => 0 :: (L me).startOut.getD 1 0 :: rest.map fun _ => 0)
        fun k v => docNd kinds ((n0 :: n1 :: rest).map Int.toNat) (fun j => X j v) k
    else HoldsR howmany.toNat comm O (f I O st) false (fun me => (L me).nOut.getD 0 0 :: n1.toNat :: rest.map Int.toNat) (fun me => (L me).startOut.getD 0 0 :: 0 :: rest.map fun _ => 0)
        fun k v => docNd kinds ((n0 :: n1 :: rest).map Int.toNat) (fun j => X j v) k := by
  have mem : ∀ d ∈ (⟨n0, ia, oa⟩ : ADim) :: ⟨n1, ib, ob⟩ :: simpleDims rest, d.n ∈ n0 :: n1 :: rest := by
    intro d hd
    simp only [List.mem_cons, simpleDims, List.mem_map] at hd
    rcases hd with rfl | rfl | ⟨n, hn, rfl⟩
    · simp
    · simp
    · simp [hn]
  have hnD : ∀ d ∈ (⟨n0, ia, oa⟩ : ADim) :: ⟨n1, ib, ob⟩ :: simpleDims rest, 1 < d.n := fun d hd => hn _ (mem d hd)
  obtain ⟨a', b', l', g1, g2, g3⟩ := guruR_layout hnD hlay hp
  have g4 : ∀ me, localSizeGuru (⟨n0, ia, oa⟩ :: ⟨n1, ib, ob⟩ :: simpleDims rest) howmany.toNat comm.length me false flags = L me := by
    intro me
    rw [← hL, guru_long _ g1 (by simp), guru_long _ g1 (by simp)]
  have ens : ((⟨n0, ia, oa⟩ : ADim) :: ⟨n1, ib, ob⟩ :: simpleDims rest).map (fun d => d.n.toNat) = (n0 :: n1 :: rest).map Int.toNat := by
    simp [simpleDims, List.map_map, Function.comp_def]
  have er : (simpleDims rest).map (fun d => d.n.toNat) = rest.map Int.toNat := by simp [simpleDims, List.map_map, Function.comp_def]
  have ez : (simpleDims rest).map (fun _ => 0) = rest.map fun _ => 0 := by rw [simpleDims, List.map_map]; rfl
  have key := C62_guru_r2r hj hc hA hh hnd (by simp) (by simpa [simpleDims] using hkl) hnD hlay (bwd := false) (fun me hme => by rw [g4]; exact hsp me hme) hap hp hf hr (X := X) (by
    refine (g3 false flags).1.2 ?_
    simp only [g4, er, ez]
    exact hX)
  refine ⟨key.1, ?_⟩
  have k2 := key.2
  simp only [ens] at k2
  have k3 := (g3 false flags).2.1 k2
  simp only [g4, er, ez] at k3
  exact k3

/-- **C62**: `fftw_mpi_plan_many_r2r` without flags, on arrays of the size `fftw_mpi_local_size_many` says, with the same block size.  If the process of rank `me` has the rows from `x_start` on,
`nx` of them, it has the same rows of the transform afterwards. -/
theorem C62_plan_many_r2r {block : ℤ} (hb : block < n0)
    (hsp : ∀ me < comm.length, (localSizeMany (n0 :: n1 :: rest) howmany.toNat block comm.length me).1 ≤ space (comm.at me))
    {p : MRdftP} (hp : planManyR2r (n0 :: n1 :: rest) howmany block block I0 O0 comm kinds {} space = some p) (hf : MPlans (MpiSolver junk ub cexp) A d fl (.rdft p) f)
    (hX : HoldsR howmany.toNat comm I st false (fun me => (localSizeMany (n0 :: n1 :: rest) howmany.toNat block comm.length me).2.1 :: n1.toNat :: rest.map Int.toNat)
      (fun me => (localSizeMany (n0 :: n1 :: rest) howmany.toNat block comm.length me).2.2 :: 0 :: rest.map fun _ => 0) X) :
    MFrame comm space fl.nd I O st (f I O st) ∧
    HoldsR howmany.toNat comm O (f I O st) false (fun me => (localSizeMany (n0 :: n1 :: rest) howmany.toNat block comm.length me).2.1 :: n1.toNat :: rest.map Int.toNat)
      (fun me => (localSizeMany (n0 :: n1 :: rest) howmany.toNat block comm.length me).2.2 :: 0 :: rest.map fun _ => 0)
      fun k v => docNd kinds ((n0 :: n1 :: rest).map Int.toNat) (fun j => X j v) k := by
  have e2 : manyTransposedDims (n0 :: n1 :: rest) block n1 = ⟨n0, block, block⟩ :: ⟨n1, n1, n1⟩ :: simpleDims rest := by
    show (if n1 < n1 then _ else _) = _
    rw [if_neg (lt_irrefl _)]
    rfl
  have e3 : ∀ me, localSizeMany (n0 :: n1 :: rest) howmany.toNat block comm.length me =
      ((localSizeGuru (⟨n0, block, block⟩ :: ⟨n1, n1, n1⟩ :: simpleDims rest) howmany.toNat comm.length me false {}).alloc,
        (localSizeGuru (⟨n0, block, block⟩ :: ⟨n1, n1, n1⟩ :: simpleDims rest) howmany.toNat comm.length me false {}).nIn.getD 0 0,
        (localSizeGuru (⟨n0, block, block⟩ :: ⟨n1, n1, n1⟩ :: simpleDims rest) howmany.toNat comm.length me false {}).startIn.getD 0 0) := by
    intro me
    unfold localSizeMany localSizeManyTransposed
    rw [show (if (n0 :: n1 :: rest).length > 1 then (n0 :: n1 :: rest).getD 1 0 else 0) = n1 by simp, e2]
  have hp : planGuruR2r (⟨n0, block, block⟩ :: ⟨n1, n1, n1⟩ :: simpleDims rest) howmany I0 O0 comm kinds {} space = some p := hp
  have hlay : LayoutOk (⟨n0, block, block⟩ :: ⟨n1, n1, n1⟩ :: simpleDims rest) comm.length {} := ⟨rfl, .inr ⟨simple_lay rest, ⟨rfl, hb⟩, ⟨rfl, hb⟩⟩⟩
  have hnD : ∀ d ∈ (⟨n0, block, block⟩ : ADim) :: ⟨n1, n1, n1⟩ :: simpleDims rest, 1 < d.n := by
    intro d hd
    simp only [List.mem_cons, simpleDims, List.mem_map] at hd
    rcases hd with rfl | rfl | ⟨n, hn', rfl⟩
    · exact hn n0 (by simp)
    · exact hn n1 (by simp)
    · exact hn n (by simp [hn'])
  obtain ⟨a', b', l', g1, g2, g3⟩ := guruR_layout hnD hlay hp
  have inout : ∀ me, (localSizeGuru (⟨n0, block, block⟩ :: ⟨n1, n1, n1⟩ :: simpleDims rest) howmany.toNat comm.length me false {}).nOut =
      (localSizeGuru (⟨n0, block, block⟩ :: ⟨n1, n1, n1⟩ :: simpleDims rest) howmany.toNat comm.length me false {}).nIn ∧
      (localSizeGuru (⟨n0, block, block⟩ :: ⟨n1, n1, n1⟩ :: simpleDims rest) howmany.toNat comm.length me false {}).startOut =
      (localSizeGuru (⟨n0, block, block⟩ :: ⟨n1, n1, n1⟩ :: simpleDims rest) howmany.toNat comm.length me false {}).startIn := by
    intro me
    have h1 : ((⟨n0, block, block⟩ : ADim) :: ⟨n1, n1, n1⟩ :: simpleDims rest).map ADim.exch = ⟨n0, block, block⟩ :: ⟨n1, n1, n1⟩ :: simpleDims rest := by
      simp only [List.map_cons, simpleDims, List.map_map]
      rfl
    have := exch_guru g1 (by simp) g2 howmany.toNat me false false {} {}
    rw [h1] at this
    exact ⟨(congrArg LocalSize.nIn this).symm, (congrArg LocalSize.startIn this).symm⟩
  simp only [e3] at hsp hX ⊢
  have key := manyR_core hj hc hA hh hnd hkl hap hr hn hlay (bw := false) (fl' := {}) (fun _ => rfl) hsp hp hf hX
  simp only [inout] at key
  exact key

/-- **C62**: `fftw_mpi_plan_many_r2r` with `FFTW_MPI_TRANSPOSED_OUT`, on arrays of the size `fftw_mpi_local_size_many_transposed` says.  The process of rank `me` has the rows from `x_start` on,
`nx` of them, before, and the columns from `y_start` on, `ny` of them, stored by columns, afterwards. -/
theorem C62_transposed_out {xblock yblock : ℤ} (hx : xblock < n0) (hy : yblock < n1)
    (hsp : ∀ me < comm.length, (localSizeManyTransposed (n0 :: n1 :: rest) howmany.toNat xblock yblock comm.length me).1 ≤ space (comm.at me))
    {p : MRdftP} (hp : planManyR2r (n0 :: n1 :: rest) howmany xblock yblock I0 O0 comm kinds { transposedOut := true } space = some p) (hf : MPlans (MpiSolver junk ub cexp) A d fl (.rdft p) f)
    (hX : HoldsR howmany.toNat comm I st false (fun me => (localSizeManyTransposed (n0 :: n1 :: rest) howmany.toNat xblock yblock comm.length me).2.1 :: n1.toNat :: rest.map Int.toNat)
      (fun me => (localSizeManyTransposed (n0 :: n1 :: rest) howmany.toNat xblock yblock comm.length me).2.2.1 :: 0 :: rest.map fun _ => 0) X) :
    MFrame comm space fl.nd I O st (f I O st) ∧
    HoldsR howmany.toNat comm O (f I O st) true (fun me => n0.toNat :: (localSizeManyTransposed (n0 :: n1 :: rest) howmany.toNat xblock yblock comm.length me).2.2.2.1 :: rest.map Int.toNat)
      (fun me => 0 :: (localSizeManyTransposed (n0 :: n1 :: rest) howmany.toNat xblock yblock comm.length me).2.2.2.2 :: rest.map fun _ => 0)
      fun k v => docNd kinds ((n0 :: n1 :: rest).map Int.toNat) (fun j => X j v) k := by
  have e2 : manyTransposedDims (n0 :: n1 :: rest) xblock yblock = ⟨n0, xblock, n0⟩ :: ⟨n1, n1, yblock⟩ :: simpleDims rest := by
    show (if yblock < n1 then _ else _) = _
    rw [if_pos hy]
    rfl
  have hlay : LayoutOk (⟨n0, xblock, n0⟩ :: ⟨n1, n1, yblock⟩ :: simpleDims rest) comm.length { transposedOut := true } := ⟨rfl, .inr ⟨simple_lay rest, ⟨rfl, hx⟩, ⟨rfl, hy⟩⟩⟩
  unfold localSizeManyTransposed at hsp hX ⊢
  simp only [e2, show (n0 :: n1 :: rest).length > 1 from by simp, if_true] at hsp hX ⊢
  exact manyR_core hj hc hA hh hnd hkl hap hr hn hlay (bw := false) (fl' := {}) (fun _ => rfl) hsp hp hf hX

/-- **C62**: with `FFTW_MPI_TRANSPOSED_IN` it is the other way round. -/
theorem C62_transposed_in {xblock yblock : ℤ} (hx : xblock < n0) (hy : yblock < n1)
    (hsp : ∀ me < comm.length, (localSizeManyTransposed (n0 :: n1 :: rest) howmany.toNat xblock yblock comm.length me).1 ≤ space (comm.at me))
    {p : MRdftP} (hp : planManyR2r (n0 :: n1 :: rest) howmany yblock xblock I0 O0 comm kinds { transposedIn := true } space = some p) (hf : MPlans (MpiSolver junk ub cexp) A d fl (.rdft p) f)
    (hX : HoldsR howmany.toNat comm I st true (fun me => n0.toNat :: (localSizeManyTransposed (n0 :: n1 :: rest) howmany.toNat xblock yblock comm.length me).2.2.2.1 :: rest.map Int.toNat)
      (fun me => 0 :: (localSizeManyTransposed (n0 :: n1 :: rest) howmany.toNat xblock yblock comm.length me).2.2.2.2 :: rest.map fun _ => 0) X) :
    MFrame comm space fl.nd I O st (f I O st) ∧
    HoldsR howmany.toNat comm O (f I O st) false (fun me => (localSizeManyTransposed (n0 :: n1 :: rest) howmany.toNat xblock yblock comm.length me).2.1 :: n1.toNat :: rest.map Int.toNat)
      (fun me => (localSizeManyTransposed (n0 :: n1 :: rest) howmany.toNat xblock yblock comm.length me).2.2.1 :: 0 :: rest.map fun _ => 0)
      fun k v => docNd kinds ((n0 :: n1 :: rest).map Int.toNat) (fun j => X j v) k := by
  have e2 : manyTransposedDims (n0 :: n1 :: rest) xblock yblock = ⟨n0, xblock, n0⟩ :: ⟨n1, n1, yblock⟩ :: simpleDims rest := by
    show (if yblock < n1 then _ else _) = _
    rw [if_pos hy]
    rfl
  have hlay : LayoutOk (⟨n0, n0, xblock⟩ :: ⟨n1, yblock, n1⟩ :: simpleDims rest) comm.length { transposedIn := true } := ⟨rfl, .inr ⟨simple_lay rest, ⟨rfl, hy⟩, ⟨rfl, hx⟩⟩⟩
  have hp : planGuruR2r (⟨n0, n0, xblock⟩ :: ⟨n1, yblock, n1⟩ :: simpleDims rest) howmany I0 O0 comm kinds { transposedIn := true } space = some p := hp
  have hnD : ∀ d ∈ (⟨n0, n0, xblock⟩ : ADim) :: ⟨n1, yblock, n1⟩ :: simpleDims rest, 1 < d.n := by
    intro d hd
    simp only [List.mem_cons, simpleDims, List.mem_map] at hd
    rcases hd with rfl | rfl | ⟨n, hn', rfl⟩
    · exact hn n0 (by simp)
    · exact hn n1 (by simp)
    · exact hn n (by simp [hn'])
  obtain ⟨a', b', l', g1, g2, g3⟩ := guruR_layout hnD hlay hp
  have hex : ((⟨n0, xblock, n0⟩ : ADim) :: ⟨n1, n1, yblock⟩ :: simpleDims rest) = ((⟨n0, n0, xblock⟩ : ADim) :: ⟨n1, yblock, n1⟩ :: simpleDims rest).map ADim.exch := by
    simp only [List.map_cons, simpleDims, List.map_map]
    rfl
  have g4 := fun me => exch_guru g1 (by simp) g2 howmany.toNat me false false {} {}
  rw [← hex] at g4
  unfold localSizeManyTransposed at hsp hX ⊢
  simp only [e2, show (n0 :: n1 :: rest).length > 1 from by simp, if_true, g4] at hsp hX ⊢
  exact manyR_core hj hc hA hh hnd hkl hap hr hn hlay (bw := false) (fl' := {}) (fun _ => rfl) hsp hp hf hX

end


end

/-! ### non-vacuity: the 3 × 3 transform on three processes of Props/MpiRdft, as the user makes it -/

attribute [local instance] sortLib

theorem exR_user : planManyR2r [3, 3] 1 0 0 (fun _ => ⟨0, 0⟩) (fun _ => ⟨0, 0⟩) [0, 1, 2] [.FFTW_R2HC, .FFTW_HC2R] { transposedOut := true } (fun _ => 12) = some exR := by
  with_unfolding_all rfl

example (ub : MDftP → MPlan) (fl : Flags) (st : Dist) (h : ∀ w, (⟨0, 0⟩ : Ptr).blk < (st w).next) (X : List ℕ → ℕ → ℝ)
    (hX : HoldsR 1 [0, 1, 2] (fun _ => ⟨0, 0⟩) st false (fun _ => [1, 3]) (fun me => [me, 0]) X) :
    ∃ f : MPlan, HoldsR 1 [0, 1, 2] (fun _ => ⟨0, 0⟩) (f (fun _ => ⟨0, 0⟩) (fun _ => ⟨0, 0⟩) st) true (fun _ => [3, 1]) (fun me => [0, me])
      fun k v => docNd [.FFTW_R2HC, .FFTW_HC2R] [3, 3] (fun j => X j v) k := by
  obtain ⟨f, hf⟩ := exR_plan Registered.exCexp ub fl
  refine ⟨f, ?_⟩
  have key := C62_transposed_out (junk := exJunk) (fun p w => by simp [exJunk]) Registered.exCexp_exact (exRB_sound Registered.exCexp_exact) (n0 := 3) (n1 := 3) (rest := []) (by decide +kernel) (howmany := 1) (by decide)
    (comm := [0, 1, 2]) (by decide) (kinds := [.FFTW_R2HC, .FFTW_HC2R]) rfl (space := fun _ => 12) (I0 := fun _ => ⟨0, 0⟩) (O0 := fun _ => ⟨0, 0⟩) ⟨fun _ _ _ => rfl, fun h => absurd rfl h, fun h => absurd rfl h⟩
    (I := fun _ => ⟨0, 0⟩) (O := fun _ => ⟨0, 0⟩) (st := st) (X := X)
    ⟨fun w _ => h w, fun w _ => h w, fun _ _ _ => rfl, fun h => absurd rfl h⟩ (xblock := 0) (yblock := 0) (by decide) (by decide) (by decide) exR_user hf (by
      intro me hme l hl v hv
      have := exDft_alloc me hme
      have e := hX me hme l
      beta_reduce at hl ⊢
      change Index ((localSizeManyTransposed [3, 3] 1 0 0 3 me).2.1 :: _) l at hl
      change relt _ _ _ _ (_, rowPos (flip2 false ((localSizeManyTransposed [3, 3] 1 0 0 3 me).2.1 :: _)) _) _ = X (List.zipWith _ ((localSizeManyTransposed [3, 3] 1 0 0 3 me).2.2.1 :: _) _) _
      rw [this] at hl ⊢
      exact e hl v hv)
  intro me hme l hl v hv
  have := exDft_alloc me hme
  have e := key.2 me hme l
  beta_reduce at e
  change Index (_ :: (localSizeManyTransposed [3, 3] 1 0 0 3 me).2.2.2.1 :: _) l → ∀ v < 1, relt _ _ _ _ (_, rowPos (flip2 true (_ :: (localSizeManyTransposed [3, 3] 1 0 0 3 me).2.2.2.1 :: _)) _) _ =
    docNd _ _ _ (List.zipWith _ (0 :: (localSizeManyTransposed [3, 3] 1 0 0 3 me).2.2.2.2 :: _) _) at e
  rw [this] at e
  exact e hl v hv

end FFTW.Props
