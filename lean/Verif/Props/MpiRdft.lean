import Verif.Proofs.MpiRdft3
import Verif.Props.MpiPlanner

/-!
# C62: distributed real-to-real transforms
-/

namespace FFTW.Props
open Tensor Spec RdftS FFTW.Mpi Planner
open FFTW.Mpi.MPlanner (MEnv PSts MRes MErr)

section
variable [CLib]

/-- **C62**.  Whatever plan the planner makes for a distributed real-to-real transform, from the registered MPI solvers and any correct serial plans, and whatever arrays it is run on (in place if
planned so, apart if not): the output at `k`, on the process and at the position given by the layout of the output, is the transform of all inputs, which are where the layout of the input says;
other processes and other memory are left alone, and so is the input if the planner was told to preserve it. -/
theorem C62_distributed_r2r {junk : TransP → ℕ → List ℤ} (hj : ∀ p w, (junk p w).length = MpiExchange.nPes p.toProb) {ub : MDftP → MPlan}
    {cexp : ℕ → ℤ → ℝ × ℝ} (hc : ExactCexp cexp) {A : Flags → Problem → Plan → Prop} (hA : ∀ fl x c, Kosher x → A fl x c → FFTW.Sound fl.nd x c)
    {p : MRdftP} {fl : Flags} (hp : p.Ok fl) {kinds : List R2rKind} (hk : p.kind = kinds.map Api.mapR2rKind) (hs : SizesOk kinds (p.sz.map fun d => d.n))
    {d : ℕ} {f : MPlan} (hf : MPlans (MpiSolver junk ub cexp) A d fl (.rdft p) f)
    {I O : ℕ → Ptr} {st : Dist} (hr : MCompat p.comm p.space p.inpl I O st) :
    MFrame p.comm p.space fl.nd I O st (f I O st) ∧
    ∀ k, Index (p.sz.map fun d => d.n) k → ∀ v < p.vn,
      relt p.vn p.comm O (f I O st) (p.outAt k) v = docNd kinds (p.sz.map fun d => d.n) (fun j => relt p.vn p.comm I st (p.inAt j) v) k := by
  have h : ROK fl.nd p f := mplans_sound (fun s h => C57_solvers_sound hj hc s h) hA d fl _ f (show MKosher fl (.rdft p) from hp) hf
  obtain ⟨h1, h2⟩ := h I O st hr
  refine ⟨h1, fun k hk' v hv => ?_⟩
  rw [h2 k hk' v hv, hk, r2rSum_doc (fun n hn => ?_) hs hk']
  obtain ⟨e, he, rfl⟩ := List.mem_map.1 hn
  exact (hp.pos e he).1

/-- **C62** for the library: serial plans come from the planner with the solvers modelled here -/
theorem C62_library {cexp : ℕ → ℤ → ℝ × ℝ} (hc : ExactCexp cexp) {mp : Genfft.Magic} (hmp : Props.MagicOk mp) {szR : ℕ} {env : Env}
    (he : ∀ d ∈ env.slvdescs, Registered.Library cexp mp szR d.slv) {junk : TransP → ℕ → List ℤ} (hj : ∀ p w, (junk p w).length = MpiExchange.nPes p.toProb) {ub : MDftP → MPlan}
    {p : MRdftP} {fl : Flags} (hp : p.Ok fl) {kinds : List R2rKind} (hk : p.kind = kinds.map Api.mapR2rKind) (hs : SizesOk kinds (p.sz.map fun d => d.n))
    {d : ℕ} {f : MPlan} (hf : MPlans (MpiSolver junk ub cexp) (SerialPlans env) d fl (.rdft p) f)
    {I O : ℕ → Ptr} {st : Dist} (hr : MCompat p.comm p.space p.inpl I O st) :
    MFrame p.comm p.space fl.nd I O st (f I O st) ∧
    ∀ k, Index (p.sz.map fun d => d.n) k → ∀ v < p.vn,
      relt p.vn p.comm O (f I O st) (p.outAt k) v = docNd kinds (p.sz.map fun d => d.n) (fun j => relt p.vn p.comm I st (p.inAt j) v) k :=
  C62_distributed_r2r hj hc (serialPlans_sound fun dd hd => Registered.C04_library hc hmp szR _ (he dd hd)) hp hk hs hf hr

theorem guruR_inv {dims : List ADim} {howmany : ℤ} {I O : ℕ → Ptr} {comm : Comm} {kinds : List R2rKind} {flags : MFlags} {space : ℕ → ℕ} {p : MRdftP}
    (hp : planGuruR2r dims howmany I O comm kinds flags space = some p) :
    dims ≠ [] ∧ (∀ d ∈ dims, 0 ≤ d.ib ∧ 0 ≤ d.ob) ∧ numBlocksTotal (distr .IB (defaultSz dims comm.length)) ≤ comm.length ∧ numBlocksTotal (distr .OB (defaultSz dims comm.length)) ≤ comm.length ∧
      p = Rdft.mkRdft (defaultSz dims comm.length) howmany.toNat I O comm (kinds.map Api.mapR2rKind) flags space := by
  unfold planGuruR2r at hp
  split at hp
  · simp at hp
  rename_i h1
  split at hp
  · simp at hp
  rename_i h2
  simp only at hp
  split at hp
  · simp at hp
  rename_i h3
  push Not at h1 h2 h3
  refine ⟨h1.2, fun d hd => ⟨(h2 d hd).2.1, (h2 d hd).2.2⟩, h3.1, h3.2, (Option.some.inj hp).symm⟩

/-- **C62**, the user's view.  The user makes a plan of a real-to-real transform of at least two dimensions with `fftw_mpi_plan_guru_r2r`, allocates on every process as many real numbers as
`fftw_mpi_local_size_guru` says, and distributes an array `X` as the latter says: the process of rank `me` stores the elements from `startIn` on, `nIn` of them in each dimension, in row-major
order (with the first two dimensions exchanged if the flags say so).  Whatever plan the planner makes, and whatever arrays it is run on: afterwards, the product of the one-dimensional transforms
of the kinds asked for, one along each dimension, is distributed over the output arrays in the same way, as `nOut` and `startOut` say; other memory and other processes are left alone, and so
is the input if the planner was told to preserve it. -/
theorem C62_guru_r2r {junk : TransP → ℕ → List ℤ} (hj : ∀ p w, (junk p w).length = MpiExchange.nPes p.toProb) {ub : MDftP → MPlan}
    {cexp : ℕ → ℤ → ℝ × ℝ} (hc : ExactCexp cexp) {A : Flags → Problem → Plan → Prop} (hA : ∀ fl x c, Kosher x → A fl x c → FFTW.Sound fl.nd x c)
    {dims : List ADim} {howmany : ℤ} (hh : 0 < howmany) {I0 O0 : ℕ → Ptr} {comm : Comm} (hnd : comm.Nodup) {kinds : List R2rKind} {flags : MFlags} {space : ℕ → ℕ}
    (hrnk : 2 ≤ dims.length) (hkl : kinds.length = dims.length) (hn : ∀ d ∈ dims, 1 < d.n) (hlay : LayoutOk dims comm.length flags) {bwd : Bool}
    (hsp : ∀ me < comm.length, (localSizeGuru dims howmany.toNat comm.length me bwd flags).alloc ≤ space (comm.at me))
    (hap : MApart comm space (I0 (comm.at 0) = O0 (comm.at 0)) I0 O0)
    {p : MRdftP} (hp : planGuruR2r dims howmany I0 O0 comm kinds flags space = some p)
    {fl : Flags} {d : ℕ} {f : MPlan} (hf : MPlans (MpiSolver junk ub cexp) A d fl (.rdft p) f)
    {I O : ℕ → Ptr} {st : Dist} (hr : MCompat comm space (I0 (comm.at 0) = O0 (comm.at 0)) I O st) {X : List ℕ → ℕ → ℝ}
    (hX : HoldsR howmany.toNat comm I st flags.transposedIn (fun me => (localSizeGuru dims howmany.toNat comm.length me bwd flags).nIn)
      (fun me => (localSizeGuru dims howmany.toNat comm.length me bwd flags).startIn) X) :
    MFrame comm space fl.nd I O st (f I O st) ∧
    HoldsR howmany.toNat comm O (f I O st) flags.transposedOut (fun me => (localSizeGuru dims howmany.toNat comm.length me bwd flags).nOut)
      (fun me => (localSizeGuru dims howmany.toNat comm.length me bwd flags).startOut)
      fun q v => docNd kinds (dims.map fun d => d.n.toNat) (fun j => X j v) q := by
  obtain ⟨hne, hb, hi, ho, rfl⟩ := guruR_inv hp
  rcases dims with _ | ⟨a, _ | ⟨b, l⟩⟩
  · exact absurd rfl hne
  · simp at hrnk
  obtain ⟨a', b', l', e1, e2, L⟩ := lay_of hn hb hlay hi ho
  obtain ⟨f1, f2, f3, f4, f6⟩ := mkRdft_fields (defaultSz (a :: b :: l) comm.length) howmany.toNat I0 O0 comm (kinds.map Api.mapR2rKind) flags space
  have f7 : (Rdft.mkRdft (defaultSz (a :: b :: l) comm.length) howmany.toNat I0 O0 comm (kinds.map Api.mapR2rKind) flags space).inpl = (I0 (comm.at 0) = O0 (comm.at 0)) := by
    unfold MRdftP.inpl; rw [f2, f3, f4]
  rw [e1] at hi ho hf f1 f2 f3 f4 f6 f7
  obtain ⟨m, mk⟩ := madeR L hlay.1 rfl rfl howmany.toNat I0 O0 comm (kinds.map Api.mapR2rKind) space
  generalize hpp : Rdft.mkRdft (a' :: b' :: l') howmany.toNat I0 O0 comm (kinds.map Api.mapR2rKind) flags space = p at hf f1 f2 f3 f4 f6 f7 m mk
  have msz : p.sz = fst' flags.transposedIn a' b' :: snd' flags.transposedIn a' b' :: l' := m.sz
  have hkl' : (kinds.map Api.mapR2rKind).length = ((a :: b :: l).map fun d => d.n.toNat).length := by simpa using hkl
  have g : ∀ me, localSizeGuru (a :: b :: l) howmany.toNat comm.length me bwd flags =
      ⟨max (if isBlock1d (distr .IB (a' :: b' :: l')) && isBlock1d (distr .OB (a' :: b' :: l')) then extraMulti (a' :: b' :: l') howmany.toNat comm.length me else 1)
        (max (localSizes me (distr .IB (a' :: b' :: l'))).1.prod (localSizes me (distr .OB (a' :: b' :: l'))).1.prod) * howmany.toNat,
        (localSizes me (distr .IB (a' :: b' :: l'))).1, (localSizes me (distr .IB (a' :: b' :: l'))).2, (localSizes me (distr .OB (a' :: b' :: l'))).1, (localSizes me (distr .OB (a' :: b' :: l'))).2⟩ :=
    fun me => guru_long _ e1 (by simp) _ _ _ _
  have ok : p.Ok fl := by
    refine ok_of_shadow (m.ok L (by show p.comm.length = _; rw [f4]) (by show p.comm.Nodup; rw [f4]; exact hnd) (by show 0 < p.vn; rw [f1]; omega)
      ⟨fun _ _ _ => rfl, fun h => absurd rfl h, fun h => absurd rfl h⟩ hi ho ?_ fl) msz ?_ (by rw [f4, f6, f7, f2, f3]; exact hap)
    · intro me hme
      have := hsp me hme
      rw [g me] at this
      show _ ≤ 2 * p.space (p.comm.at me)
      rw [f6, f4]
      have e : (shadow p).vn = howmany.toNat := f1
      rw [e]
      simp only at this
      omega
    · rw [mk, msz]
      have e3 := congrArg List.length e2
      simp only [List.length_map, List.length_cons] at e3 hkl' ⊢
      rcases kinds with _ | ⟨k0, _ | ⟨k1, ks⟩⟩
      · simp at hkl
      · simp at hkl
      · cases flags.transposedIn <;> simp [flipK] at hkl ⊢ <;> omega
  have key : ROK fl.nd p f := mplans_sound (fun s h => C57_solvers_sound hj hc s h) hA d fl _ f (show MKosher fl (.rdft p) from ok) hf
  have key := key I O st (by rw [f4, f6, f7]; exact hr)
  have mns : (p.sz.map fun d => d.n) = flip2 flags.transposedIn ((a' :: b' :: l').map DDim.n) := m.ns
  rw [f1, f4, mns, mk, f6] at key
  have SI := L.simple .IB flags.transposedIn rfl
  have SO := L.simple .OB flags.transposedOut rfl
  simp only [g] at hX ⊢
  rw [holdsR_flip fun me => (sizes_len _ _).2.trans (sizes_len _ _).1.symm] at hX ⊢
  have hpin : 0 < (fst' flags.transposedIn a' b').ib := by cases flags.transposedIn; exact L.posA.2.1; exact L.posB.2.1
  have hnbi : numBlocks (fst' flags.transposedIn a' b').n (fst' flags.transposedIn a' b').ib ≤ comm.length := by
    refine le_trans ?_ hi
    have posL : ∀ e ∈ a' :: b' :: l', 0 < numBlocks e.n (e.b .IB) := by
      intro e he
      simp only [List.mem_cons] at he
      rcases he with rfl | rfl | he
      · exact numBlocks_pos (by have := L.posA.1; omega) L.posA.2.1
      · exact numBlocks_pos (by have := L.posB.1; omega) L.posB.2.1
      · obtain ⟨q1, q2, q3⟩ := L.posL e he
        exact numBlocks_pos (by omega) (show 0 < e.ib by omega)
    unfold numBlocksTotal distr
    rw [List.map_map]
    refine List.single_le_prod (fun x hx => ?_) _ (List.mem_map.2 ⟨fst' flags.transposedIn a' b', ?_, rfl⟩)
    · obtain ⟨e, he, rfl⟩ := List.mem_map.1 hx
      exact posL e he
    · unfold fst'
      split <;> simp
  have hne' : ∀ t : Bool, (fst' t a' b').n :: (snd' t a' b').n :: l'.map DDim.n = flip2 t ((a :: b :: l).map fun d => d.n.toNat) := by
    intro t
    rw [← e2]
    cases t <;> rfl
  refine ⟨key.1, SO.writeR ?_⟩
  intro j hj v hv
  rw [hne'] at hj
  have hk : Index ((a :: b :: l).map fun d => d.n.toNat) (flip2 flags.transposedOut j) := by have := index_flip flags.transposedOut hj; rwa [flip2_flip2] at this
  have k2 := key.2 (flip2 flags.transposedIn (flip2 flags.transposedOut j)) (by rw [e2]; exact index_flip _ hk) v hv
  rw [(shadow_at msz _).2, m.outAt L, flip2_flip2] at k2
  refine k2.trans ?_
  have hpos : ∀ n ∈ (a :: b :: l).map fun d => d.n.toNat, 0 < n := by
    intro n hn'
    obtain ⟨e, he, rfl⟩ := List.mem_map.1 hn'
    have := hn e he
    omega
  have hsz : SizesOk kinds ((a :: b :: l).map fun d => d.n.toNat) := by
    have hn2 : ∀ n ∈ (a :: b :: l).map fun d => d.n.toNat, 2 ≤ n := by
      intro n hn'
      obtain ⟨e, he, rfl⟩ := List.mem_map.1 hn'
      have := hn e he
      omega
    refine List.forall₂_iff_zip.2 ⟨by simpa using hkl, fun hmem _ => hn2 _ (List.of_mem_zip hmem).2⟩
  rw [e2, ← r2rSum_doc hpos hsz hk, ← r2rSum_flip flags.transposedIn hk hkl']
  refine Rdft.r2rSum_congr (index_flip _ hk) (fun j hj => ?_) ?_
  · rw [(shadow_at msz _).1, m.inAt L]
    exact SI.readR hpin hnbi hX (by rw [hne']; exact hj) hv
  · rcases kinds with _ | ⟨k0, _ | ⟨k1, ks⟩⟩
    · simp at hkl
    · simp at hkl
    · cases flags.transposedIn <;> simp [flipK, flip2, swap2] at hkl ⊢ <;> omega

variable {junk : TransP → ℕ → List ℤ} {ub : MDftP → MPlan} {cexp : ℕ → ℤ → ℝ × ℝ} {E : MEnv}

open Classical in
/-- **C62** with C59: `fftw_mpi_plan_guru_r2r` from the user's call to the result of execution, for the library's serial and MPI solvers.  No process is left waiting while planning; and
if they get a plan, it computes the real-to-real transform of the distributed array, and preserves the input unless the user gave it up. -/
theorem C62_planned_guru_r2r (hE : Together junk ub cexp E) (hj : ∀ p w, (junk p w).length = MpiExchange.nPes p.toProb) (hc : ExactCexp cexp) {mp : Genfft.Magic} (hmp : Props.MagicOk mp) {szR : ℕ}
    (he : ∀ w, ∀ d ∈ (E.env w).slvdescs, Registered.Library cexp mp szR d.slv)
    {dims : List ADim} {howmany : ℤ} {I0 O0 : ℕ → Ptr} {comm : Comm} (hne : comm ≠ []) (hnd : comm.Nodup) {kinds : List R2rKind} {flags : MapFlags.U32} {space : ℕ → ℕ} (n : ℕ)
    {nt : ℕ} {sts : PSts} (hs : ∀ w ∈ comm, (sts w).nthr = nt) :
    mpiPlanGuruR2r E n dims howmany I0 O0 comm kinds flags space sts ≠ .error .desync ∧
    ∀ f sts', mpiPlanGuruR2r E n dims howmany I0 O0 comm kinds flags space sts = .ok (some f, sts') → 0 < howmany → 2 ≤ dims.length → kinds.length = dims.length →
      (∀ d ∈ dims, 1 < d.n) → LayoutOk dims comm.length (mpiFlags flags) → ∀ bwd,
      (∀ me < comm.length, (localSizeGuru dims howmany.toNat comm.length me bwd (mpiFlags flags)).alloc ≤ space (comm.at me)) →
      MApart comm space (I0 (comm.at 0) = O0 (comm.at 0)) I0 O0 →
      ∀ (I O : ℕ → Ptr) (st : Dist) (X : List ℕ → ℕ → ℝ), MCompat comm space (I0 (comm.at 0) = O0 (comm.at 0)) I O st →
      (HoldsR howmany.toNat comm I st (mpiFlags flags).transposedIn (fun me => (localSizeGuru dims howmany.toNat comm.length me bwd (mpiFlags flags)).nIn)
        (fun me => (localSizeGuru dims howmany.toNat comm.length me bwd (mpiFlags flags)).startIn) X) →
      MFrame comm space (decide (Preserves flags)) I O st (f I O st) ∧
      HoldsR howmany.toNat comm O (f I O st) (mpiFlags flags).transposedOut (fun me => (localSizeGuru dims howmany.toNat comm.length me bwd (mpiFlags flags)).nOut)
        (fun me => (localSizeGuru dims howmany.toNat comm.length me bwd (mpiFlags flags)).startOut)
        fun q v => docNd kinds (dims.map fun d => d.n.toNat) (fun j => X j v) q := by
  unfold mpiPlanGuruR2r
  cases hp : planGuruR2r dims howmany I0 O0 comm kinds (mpiFlags flags) space with
  | none => exact ⟨by simp, fun f sts' h => by simp at h⟩
  | some p =>
    have ep : p.comm = comm := by
      obtain ⟨_, _, _, _, rfl⟩ := guruR_inv hp
      exact (mkRdft_fields _ _ _ _ _ _ _ _).2.2.2.1
    obtain ⟨h1, h2⟩ := C59_apiplan_in_step hE n flags (p := .rdft p) (nt := nt) (sts := sts) (by show p.comm ≠ []; rw [ep]; exact hne) (by show p.comm.Nodup; rw [ep]; exact hnd)
      (by show ∀ w ∈ p.comm, _; rw [ep]; exact hs)
    refine ⟨h1, fun f sts' h hh hrnk hkl hn hlay bwd hsp hap I O st X hr hX => ?_⟩
    obtain ⟨d, fl, hnd', hf⟩ := (h2 _ _ h).2.2 f rfl
    rw [← hnd']
    exact C62_guru_r2r hj hc (anySerial_sound hc hmp he) hh hnd hrnk hkl hn hlay hsp hap hp hf hr hX

end

/-! ### non-vacuity -/

attribute [local instance] sortLib

/-- three processes, a 3 × 3 matrix by rows, result by columns, in place; R2HC in the first dimension, HC2R in the second -/
def exR : MRdftP := Rdft.mkRdft [⟨3, 1, 3⟩, ⟨3, 3, 1⟩] 1 (fun _ => ⟨0, 0⟩) (fun _ => ⟨0, 0⟩) [0, 1, 2] [.R2HC00, .HC2R00] { transposedOut := true } (fun _ => 12)

/-- what `fftw_mpi_plan_guru_r2r` makes of the arguments -/
theorem exR_api : planGuruR2r [⟨3, 1, 3⟩, ⟨3, 3, 1⟩] 1 (fun _ => ⟨0, 0⟩) (fun _ => ⟨0, 0⟩) [0, 1, 2] [.FFTW_R2HC, .FFTW_HC2R] { transposedOut := true } (fun _ => 12) = some exR := by
  have h := planGuruR2r
  rfl

/-- its local problems are solved by rdft/generic.c and rdft/nop.c -/
def exRB (cexp : ℕ → ℤ → ℝ × ℝ) (fl : Flags) (x : Problem) (c : Plan) : Prop :=
  RdftS.nop.mkplan x fl = .ret (some c) ∨ (RdftS.genericR cexp .R2HC00 fun _ _ => true).mkplan x fl = .ret (some c) ∨ (RdftS.genericR cexp .HC2R00 fun _ _ => true).mkplan x fl = .ret (some c)

theorem exRB_sound {cexp : ℕ → ℤ → ℝ × ℝ} (hc : ExactCexp cexp) (fl : Flags) (x : Problem) (c : Plan) (hk : Kosher x) (h : exRB cexp fl x c) : FFTW.Sound fl.nd x c := by
  rcases h with h | h | h
  · exact exA_sound fl x c hk h
  · have := RdftS.genericR_sound hc (kind := .R2HC00) (by simp) (fun _ _ => true) x fl hk
    rw [h] at this
    exact this c rfl
  · have := RdftS.genericR_sound hc (kind := .HC2R00) (by simp) (fun _ _ => true) x fl hk
    rw [h] at this
    exact this c rfl

/-- the transposition -/
def exRT : TransP := mkTrans 3 3 1 (fun _ => ⟨0, 0⟩) (fun _ => ⟨0, 0⟩) 1 1 [0, 1, 2] {} (fun _ => 12)

theorem exRT_post (cexp : ℕ → ℤ → ℝ × ℝ) (fl : Flags) (B : Flags → MProblem → MPlan → Prop) (g : Post → MPlan) :
    ∃ post, (mkplansPost exRT (fun _ => ⟨0, 0⟩) (fun _ => ⟨0, 0⟩) fun post => .ret (some (g post))).Runs (exRB cexp) B fl (some (g post)) := by
  refine ⟨⟨fun _ => .rdft fun _ _ st => st, fun _ => .rdft fun _ _ st => st, fun _ => .rdft fun _ _ st => st⟩, ?_⟩
  refine .loc _ _ _ _ (fun _ => .rdft fun _ _ st => st) _ ?_ (.loc _ _ _ _ (fun _ => .rdft fun _ _ st => st) _ ?_ (.loc _ _ _ _ (fun _ => .rdft fun _ _ st => st) _ ?_ (.ret _)))
  · intro me hme x hx
    have : me = 0 ∨ me = 1 ∨ me = 2 := by have : me < 3 := hme; omega
    rcases this with rfl | rfl | rfl
    all_goals
      obtain rfl := Option.some.inj hx
      left
      with_unfolding_all rfl
  · intro me hme x hx
    have : me = 0 ∨ me = 1 ∨ me = 2 := by have : me < 3 := hme; omega
    rcases this with rfl | rfl | rfl
    · obtain rfl := Option.some.inj ((show some (rdft0 (restDims exRT (direct exRT ⟨0, 0⟩ ⟨0, 0⟩) 0) (⟨0, 3⟩ : Ptr) ⟨0, 3⟩) = _ by with_unfolding_all rfl).trans hx)
      left
      with_unfolding_all rfl
    · obtain rfl := Option.some.inj ((show some (rdft0 (restDims exRT (direct exRT ⟨0, 0⟩ ⟨0, 0⟩) 1) (⟨0, 3⟩ : Ptr) ⟨0, 3⟩) = _ by with_unfolding_all rfl).trans hx)
      left
      with_unfolding_all rfl
    · obtain rfl := Option.some.inj ((show some (rdft0 (restDims exRT (direct exRT ⟨0, 0⟩ ⟨0, 0⟩) 2) (⟨0, 3⟩ : Ptr) ⟨0, 3⟩) = _ by with_unfolding_all rfl).trans hx)
      left
      with_unfolding_all rfl
  · intro me hme x hx
    beta_reduce at hx
    rw [show hasCld3 exRT (direct exRT ⟨0, 0⟩ ⟨0, 0⟩) = false from rfl] at hx
    simp at hx

theorem exRT_plan (cexp : ℕ → ℤ → ℝ × ℝ) (ub : MDftP → MPlan) (fl : Flags) : ∃ f, MPlans (MpiSolver exJunk ub cexp) (exRB cexp) 1 fl (.transpose exRT) f := by
  have e : (if (false || fl.nd) = true then exRT.O else exRT.I) = fun _ => (⟨0, 0⟩ : Ptr) := by split <;> rfl
  have hg : ∃ f, (pairwiseMk (exJunk exRT) false exRT fl).Runs (exRB cexp) (MPlans (MpiSolver exJunk ub cexp) (exRB cexp) 0) fl (some f) := by
    unfold pairwiseMk
    simp only
    have ha : pairwiseApplicable false exRT fl = true := rfl
    rw [if_neg (by rw [ha]; decide), if_neg (by decide), e]
    exact ⟨_, (exRT_post cexp fl (MPlans (MpiSolver exJunk ub cexp) (exRB cexp) 0) _).choose_spec⟩
  obtain ⟨f, hf⟩ := hg
  exact ⟨f, fl, by simp [Planner.LEQ], transposePairwise exJunk false, .transpose (.pairwise false), hf⟩

theorem exR_plan (cexp : ℕ → ℤ → ℝ × ℝ) (ub : MDftP → MPlan) (fl : Flags) : ∃ f, MPlans (MpiSolver exJunk ub cexp) (exRB cexp) 2 fl (.rdft exR) f := by
  have e : (if (false || fl.nd) = true then exR.O else exR.I) = fun _ => (⟨0, 0⟩ : Ptr) := by split <;> rfl
  have h3 : Primes.isPrime 3 = some true := by
    rw [Primes.isPrime_some (by norm_num)]; simpa using (by norm_num : Nat.Prime 3)
  have hloc1 : ∀ (sz vec : List Dim) (kd : List RKind), Rdft.rdftPr sz kd vec (⟨0, 0⟩ : Ptr) ⟨0, 0⟩ = .rdft ⟨[(⟨3, 1, 1⟩, .HC2R00)], some [], ⟨0, 0⟩, ⟨0, 0⟩⟩ →
      exRB cexp (fl.modify {}) (Rdft.rdftPr sz kd vec (⟨0, 0⟩ : Ptr) ⟨0, 0⟩) (.rdft (RdftS.genericHc2r (DftS.genericW cexp 3) 3 1 1)) := by
    intro sz vec kd h
    right; right
    rw [h]
    simp [RdftS.genericR, RdftS.rdftSolver, h3]
  have hloc2 : ∀ (sz vec : List Dim) (kd : List RKind), Rdft.rdftPr sz kd vec (⟨0, 0⟩ : Ptr) ⟨0, 0⟩ = .rdft ⟨[(⟨3, 1, 1⟩, .R2HC00)], some [], ⟨0, 0⟩, ⟨0, 0⟩⟩ →
      exRB cexp (fl.modify {}) (Rdft.rdftPr sz kd vec (⟨0, 0⟩ : Ptr) ⟨0, 0⟩) (.rdft (RdftS.genericR2hc (DftS.genericW cexp 3) 3 1 1)) := by
    intro sz vec kd h
    right; left
    rw [h]
    simp [RdftS.genericR, RdftS.rdftSolver, h3]
  have hg : ∃ f, (Rdft.geq2TransposedMk false exR fl).Runs (exRB cexp) (MPlans (MpiSolver exJunk ub cexp) (exRB cexp) 1) fl (some f) := by
    have hsz : exR.sz = [⟨3, 1, 3⟩, ⟨3, 3, 1⟩] := rfl
    have hkd : exR.kind = [.R2HC00, .HC2R00] := rfl
    unfold Rdft.geq2TransposedMk
    simp only [hsz, hkd]
    rw [if_neg (by
      have : Rdft.notSlow exR fl = true := by
        unfold Rdft.notSlow
        rw [show Rdft.rdftSerialApplicable exR = false from rfl]
        simp
      rw [this, show Rdft.preserveOk false exR fl = true from rfl]
      decide), e]
    obtain ⟨t, ht⟩ := exRT_plan cexp ub (fl.modify {})
    refine ⟨_, .loc _ _ _ _ (fun _ => .rdft (RdftS.genericHc2r (DftS.genericW cexp 3) 3 1 1)) _ ?_
      (.grp _ _ _ _ (fun _ => t) _ ?_ (.loc _ _ _ _ (fun _ => .rdft (RdftS.genericR2hc (DftS.genericW cexp 3) 3 1 1)) _ ?_ (.ret _)))⟩
    · intro me hme x hx
      have : me = 0 ∨ me = 1 ∨ me = 2 := by have : me < 3 := hme; omega
      rcases this with rfl | rfl | rfl
      all_goals
        obtain rfl := Option.some.inj hx
        exact hloc1 _ _ _ (by with_unfolding_all rfl)
    · intro me hme x hx
      obtain rfl := Option.some.inj hx
      exact ht
    · intro me hme x hx
      have : me = 0 ∨ me = 1 ∨ me = 2 := by have : me < 3 := hme; omega
      rcases this with rfl | rfl | rfl
      all_goals
        obtain rfl := Option.some.inj hx
        exact hloc2 _ _ _ (by with_unfolding_all rfl)
  obtain ⟨f, hf⟩ := hg
  exact ⟨f, fl, by simp [Planner.LEQ], Rdft.rdftRankGeq2Transposed false, .rdftGeq2Transposed false, hf⟩

/-- what `fftw_mpi_local_size_guru` says -/
theorem exR_size : ∀ me < 3, (localSizeGuru [⟨3, 1, 3⟩, ⟨3, 3, 1⟩] 1 3 me false { transposedOut := true }).nIn = [1, 3] ∧
    (localSizeGuru [⟨3, 1, 3⟩, ⟨3, 3, 1⟩] 1 3 me false { transposedOut := true }).startIn = [me, 0] ∧
    (localSizeGuru [⟨3, 1, 3⟩, ⟨3, 3, 1⟩] 1 3 me false { transposedOut := true }).nOut = [3, 1] ∧
    (localSizeGuru [⟨3, 1, 3⟩, ⟨3, 3, 1⟩] 1 3 me false { transposedOut := true }).startOut = [0, me] := by
  intro me h
  interval_cases me <;> exact ⟨rfl, rfl, rfl, rfl⟩

/-- all hypotheses of `C62_guru_r2r` are met: process `r` has row `r` of a 3 × 3 matrix, and afterwards column `r` of its transform -/
example (st : Dist) (h : ∀ w, 0 < (st w).next) (fl : Flags) (ub : MDftP → MPlan) : ∃ f : MPlan, ∀ k0 k1 : ℕ, k0 < 3 → k1 < 3 →
    (f (fun _ => ⟨0, 0⟩) (fun _ => ⟨0, 0⟩) st k1).mem ⟨0, k0⟩ =
      docNd [.FFTW_R2HC, .FFTW_HC2R] [3, 3] (fun j => (st (j.getD 0 0)).mem ⟨0, j.getD 1 0⟩) [k0, k1] := by
  obtain ⟨f, hf⟩ := exR_plan Registered.exCexp ub fl
  refine ⟨f, fun k0 k1 h0 h1 => ?_⟩
  have key := (C62_guru_r2r (junk := exJunk) (fun p w => by simp [exJunk]) Registered.exCexp_exact (exRB_sound Registered.exCexp_exact) (dims := [⟨3, 1, 3⟩, ⟨3, 3, 1⟩]) (howmany := 1)
    (comm := [0, 1, 2]) (flags := { transposedOut := true }) (by norm_num) (by decide) (by decide) rfl (by decide)
    (show _ ∧ _ from ⟨rfl, .inr ⟨by decide, by decide, by decide⟩⟩) (bwd := false) (by
      intro me hme
      have : me = 0 ∨ me = 1 ∨ me = 2 := by have : me < 3 := hme; omega
      rcases this with rfl | rfl | rfl <;> decide) ⟨fun _ _ _ => rfl, fun h => absurd rfl h, fun h => absurd rfl h⟩ exR_api hf (I := fun _ => ⟨0, 0⟩) (O := fun _ => ⟨0, 0⟩) (st := st)
    ⟨fun w _ => h w, fun w _ => h w, fun _ _ _ => rfl, fun h => absurd rfl h⟩ (X := fun j _ => (st (j.getD 0 0)).mem ⟨0, j.getD 1 0⟩) (by
      intro me hme l hl v hv
      have hv : v = 0 := by have : v < 1 := hv; omega
      subst hv
      have hme : me < 3 := hme
      obtain ⟨e1, e2, _, _⟩ := exR_size me hme
      change Index (localSizeGuru [⟨3, 1, 3⟩, ⟨3, 3, 1⟩] 1 3 me false { transposedOut := true }).nIn l at hl
      change relt 1 [0, 1, 2] _ st (me, rowPos (localSizeGuru [⟨3, 1, 3⟩, ⟨3, 3, 1⟩] 1 3 me false { transposedOut := true }).nIn l) 0 =
        (fun j : List ℕ => (st (j.getD 0 0)).mem ⟨0, j.getD 1 0⟩) (List.zipWith (· + ·) (localSizeGuru [⟨3, 1, 3⟩, ⟨3, 3, 1⟩] 1 3 me false { transposedOut := true }).startIn l)
      rw [e1] at hl ⊢
      rw [e2]
      cases hl with | @cons l0 _ _ _ g0 hl =>
      cases hl with | @cons l1 _ _ _ g1 hl =>
      cases hl
      interval_cases me <;> interval_cases l0 <;> interval_cases l1 <;> rfl)).2 k1 h1 [k0, 0] (by
        obtain ⟨_, _, e3, _⟩ := exR_size k1 h1
        change Index (localSizeGuru [⟨3, 1, 3⟩, ⟨3, 3, 1⟩] 1 3 k1 false { transposedOut := true }).nOut _
        rw [e3]
        exact .cons h0 (.cons (by norm_num) .nil)) 0 (by decide)
  obtain ⟨_, _, e3, e4⟩ := exR_size k1 h1
  change relt 1 [0, 1, 2] _ _ (k1, rowPos (flip2 true (localSizeGuru [⟨3, 1, 3⟩, ⟨3, 3, 1⟩] 1 3 k1 false { transposedOut := true }).nOut) (flip2 true [k0, 0])) 0 =
    (fun q => docNd [.FFTW_R2HC, .FFTW_HC2R] [3, 3] (fun j => (st (j.getD 0 0)).mem ⟨0, j.getD 1 0⟩) q)
      (List.zipWith (· + ·) (localSizeGuru [⟨3, 1, 3⟩, ⟨3, 3, 1⟩] 1 3 k1 false { transposedOut := true }).startOut [k0, 0]) at key
  rw [e3, e4] at key
  have ez : List.zipWith (· + ·) [0, k1] [k0, 0] = [k0, k1] := by simp
  rw [ez] at key
  refine Eq.trans ?_ key
  interval_cases k0 <;> interval_cases k1 <;> rfl

end FFTW.Props
