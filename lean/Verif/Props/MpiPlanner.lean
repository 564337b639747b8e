import Verif.Model.MpiPlan
import Verif.Proofs.MpiPlanner6
import Verif.Props.MpiApi

/-!
# C59: processes that plan together stay in step
-/

namespace FFTW.Props
open Tensor Spec RdftS FFTW.Mpi Planner
open FFTW.Mpi.MPlanner (MEnv PSts MRes MErr)

section
variable [CLib]

/-- The processes that call the planner.  The MPI solvers registered are those of the library, no process has a time limit (`fftw_set_timelimit`, the default); everything else may
differ from process to process: the serial solvers and the order of their registration, wisdom, measured times, estimated costs. -/
structure Together (junk : TransP → ℕ → List ℤ) (ub : MDftP → MPlan) (cexp : ℕ → ℤ → ℝ × ℝ) (E : MEnv) : Prop where
  reg : ∀ (i : ℕ) d, E.reg[i]? = some (some d) → MpiSolver junk ub cexp d.2
  serial : ∀ w t, (E.env w).world.late t = false
  limit : ∀ w, E.tl w = none

/-- a serial plan made by the planner of one of the processes -/
def AnySerial (E : MEnv) (fl : Flags) (x : Problem) (c : Plan) : Prop := ∃ w, SerialPlans (E.env w) fl x c

theorem anySerial_sound {cexp : ℕ → ℤ → ℝ × ℝ} (hc : ExactCexp cexp) {mp : Genfft.Magic} (hmp : Props.MagicOk mp) {szR : ℕ} {E : MEnv}
    (he : ∀ w, ∀ d ∈ (E.env w).slvdescs, Registered.Library cexp mp szR d.slv) (fl : Flags) (x : Problem) (c : Plan) (hk : Kosher x) (h : AnySerial E fl x c) : FFTW.Sound fl.nd x c := by
  obtain ⟨w, h⟩ := h
  exact serialPlans_sound (fun dd hd => Registered.C04_library hc hmp szR _ (he w dd hd)) fl x c hk h

variable {junk : TransP → ℕ → List ℤ} {ub : MDftP → MPlan} {cexp : ℕ → ℤ → ℝ × ℝ} {E : MEnv}

theorem together_fine (hE : Together junk ub cexp E) : MPlanner.Fine (MpiSolver junk ub cexp) E :=
  ⟨hE.reg, fun s h => mpiSolver_fits s h, hE.serial, hE.limit⟩

/-- **C59**, the planner.  All processes of a communicator are asked for a plan of the same problem, with the same flags, number of threads and use of wisdom.  Whatever each has in its wisdom tables,
whatever times it measures, and whatever serial plans it finds: they never part ways, that is, always enter the same collective operations.  All or none get the plan, which is made of
the same MPI solvers everywhere, and afterwards flags and state of wisdom are the same again. -/
theorem C59_planner_in_step (hE : Together junk ub cexp E) (n : ℕ) {p : MProblem} (hc : MPlanner.commOf p ≠ []) (hnd : (MPlanner.commOf p).Nodup) {fl : Flags} {W : WState}
    (hpre : LEQ fl.l fl.u = true ∨ W = .only) {sts : PSts}
    (hs : ∀ w ∈ MPlanner.commOf p, (sts w).flags.l = fl.l ∧ (sts w).flags.u = fl.u ∧ (sts w).flags.tli = fl.tli ∧ (sts w).nthr = fl.nthr ∧ (sts w).wstate = W) (hW : W ≠ .bogus) :
    MPlanner.mkplan E n p sts ≠ .error .desync ∧
    ∀ r sts', MPlanner.mkplan E n p sts = .ok (r, sts') →
      (∀ w, w ∉ MPlanner.commOf p → sts' w = sts w) ∧
      (∀ w ∈ MPlanner.commOf p, (sts' w).flags.l = fl.l ∧ (sts' w).flags.u = fl.u ∧ (sts' w).nthr = fl.nthr) ∧
      ((∀ w ∈ MPlanner.commOf p, (sts' w).wstate = W) ∨ ∀ w ∈ MPlanner.commOf p, (sts' w).wstate = .bogus) ∧
      ∀ f, r = some f → MPlans (MpiSolver junk ub cexp) (AnySerial E) n fl p f := by
  rw [MPlanner.mkplan_nto hc fun w hw => by rw [(hs w hw).2.2.2.2]; exact hW]
  set sts1 := MPlanner.upd (MPlanner.commOf p) (fun _ st => { st with timedOut := false }) sts with hs1
  have h1 : MPlanner.Sync (MPlanner.commOf p) fl W sts1 sts1 := by
    refine ⟨fun _ _ => rfl, fun w hw => ?_, fun w hw => ?_, fun w hw => ?_⟩
    · rw [hs1, MPlanner.upd_in hw]
      obtain ⟨a, b, c, d, _⟩ := hs w hw
      show Flags.mk (sts w).flags.l (sts w).flags.u (sts w).flags.tli (sts w).nthr = fl
      rw [a, b, c, d]
    · rw [hs1, MPlanner.upd_in hw]; exact Or.inl (hs w hw).2.2.2.2
    · rw [hs1, MPlanner.upd_in hw]
  have key := MPlanner.mkplan_ok (together_fine hE) n p sts1 fl W hc hnd (by rcases hpre with h | h; exacts [.inl h, .inr (.inl h)]) h1
  cases hm : MPlanner.mkplan E n p sts1 with
  | error e =>
    rw [hm] at key
    exact ⟨fun h => key (by simpa using h), fun r sts' h => by simp at h⟩
  | ok x =>
    rw [hm] at key
    refine ⟨by simp, fun r sts' h => ?_⟩
    obtain rfl := Except.ok.inj h
    have hk : MPlanner.PostR (MpiSolver junk ub cexp) E n p fl W sts1 (r, sts') := key
    have ecl : (MPlanner.canon fl).l = fl.l ∧ (MPlanner.canon fl).u = fl.u ∧ (MPlanner.canon fl).nthr = fl.nthr := by unfold MPlanner.canon; split <;> exact ⟨rfl, rfl, rfl⟩
    refine ⟨fun w hw => ?_, fun w hw => ?_, ?_, fun f e => hk.plan f e⟩
    · rw [show sts' w = sts1 w from hk.sync.out w hw, hs1, MPlanner.upd_out hw]
    · have := hk.sync.seen w hw
      exact ⟨(congrArg Flags.l this).trans ecl.1, (congrArg Flags.u this).trans ecl.2.1, (congrArg Flags.nthr this).trans ecl.2.2⟩
    · obtain ⟨W', hW'⟩ := hk.same
      have h0 := hk.sync.wst _ (MPlanner.at0 hc)
      simp only at h0 hW'
      rcases h0 with h0 | h0
      · exact Or.inl fun w hw => (hW' w hw).trans ((hW' _ (MPlanner.at0 hc)).symm.trans h0)
      · exact Or.inr fun w hw => (hW' w hw).trans ((hW' _ (MPlanner.at0 hc)).symm.trans h0)

open Classical in
/-- **C59**, `X(mkapiplan)`: the same through all levels of patience and all retries with inconsistent wisdom.  The processes need not have anything in common before, except the number of threads to
plan for. -/
theorem C59_apiplan_in_step (hE : Together junk ub cexp E) (n : ℕ) (flags : MapFlags.U32) {p : MProblem} (hc : MPlanner.commOf p ≠ []) (hnd : (MPlanner.commOf p).Nodup) {nt : ℕ} {sts : PSts}
    (hs : ∀ w ∈ MPlanner.commOf p, (sts w).nthr = nt) :
    MPlanner.mkapiplan E n flags p sts ≠ .error .desync ∧
    ∀ r sts', MPlanner.mkapiplan E n flags p sts = .ok (r, sts') →
      (∀ w, w ∉ MPlanner.commOf p → sts' w = sts w) ∧ (∀ w ∈ MPlanner.commOf p, (sts' w).nthr = nt) ∧
      ∀ f, r = some f → ∃ d fl, fl.nd = decide (Preserves flags) ∧ MPlans (MpiSolver junk ub cexp) (AnySerial E) d fl p f := by
  have key := MPlanner.mkapiplan_ok (n := n) (flags := flags) (s0 := sts) (sts := sts) (together_fine hE) hc hnd ⟨fun _ _ => rfl, hs⟩
  cases hm : MPlanner.mkapiplan E n flags p sts with
  | error e =>
    rw [hm] at key
    exact ⟨fun h => key (by simpa using h), fun r sts' h => by simp at h⟩
  | ok x =>
    rw [hm] at key
    refine ⟨by simp, fun r sts' h => ?_⟩
    obtain rfl := Except.ok.inj h
    have hk : MPlanner.PostA (MpiSolver junk ub cexp) E p flags nt sts (r, sts') := key
    refine ⟨hk.1.out, hk.1.nthr, fun f e => ?_⟩
    obtain ⟨g, d, fl, pf, hg, hpf, hl, hp⟩ := hk.2 f e
    refine ⟨d, fl, ?_, hp⟩
    have e : fl.nd = ndOf pf.l := by unfold Flags.nd ndOf; rw [hl]
    rw [e, Bool.eq_iff_iff, nd_of_mapflags hpf, decide_eq_true_iff]
    exact wish_preserves hg

open Classical in
/-- **C59** with C58: `fftw_mpi_plan_guru_dft` from the user's call to the result of execution, for the library's serial and MPI solvers.  No process is left waiting while planning; and
if they get a plan, it computes the discrete Fourier transform of the distributed array, and preserves the input unless the user gave it up. -/
theorem C59_guru_dft (hE : Together junk ub cexp E) (hj : ∀ p w, (junk p w).length = MpiExchange.nPes p.toProb) (hc : ExactCexp cexp) {mp : Genfft.Magic} (hmp : Props.MagicOk mp) {szR : ℕ}
    (he : ∀ w, ∀ d ∈ (E.env w).slvdescs, Registered.Library cexp mp szR d.slv)
    {dims : List ADim} {howmany : ℤ} {I0 O0 : ℕ → Ptr} {comm : Comm} (hne : comm ≠ []) (hnd : comm.Nodup) {bwd : Bool} {flags : MapFlags.U32} {space : ℕ → ℕ} (n : ℕ)
    {nt : ℕ} {sts : PSts} (hs : ∀ w ∈ comm, (sts w).nthr = nt) :
    mpiPlanGuruDft E n dims howmany I0 O0 comm bwd flags space sts ≠ .error .desync ∧
    ∀ f sts', mpiPlanGuruDft E n dims howmany I0 O0 comm bwd flags space sts = .ok (some f, sts') → 0 < howmany →
      (∀ d ∈ dims, 1 < d.n ∧ d.n < Primes.trialBound) → LayoutOk dims comm.length (mpiFlags flags) →
      (∀ me < comm.length, 2 * (localSizeGuru dims howmany.toNat comm.length me bwd (mpiFlags flags)).alloc ≤ space (comm.at me)) →
      ((mpiFlags flags).scrambledIn ≠ (mpiFlags flags).scrambledOut → ∀ d, dims = [d] → ∀ r m, chooseRadix d.n.toNat comm.length bwd = some (r, m) →
        ∀ me < comm.length, 2 * (max r m * howmany.toNat) ≤ space (comm.at me)) →
      MApart comm space (I0 (comm.at 0) = O0 (comm.at 0)) I0 O0 →
      ∀ (I O : ℕ → Ptr) (st : Dist) (X : List ℕ → ℕ → ℂ), MCompat comm space (I0 (comm.at 0) = O0 (comm.at 0)) I O st →
      (Holds howmany.toNat comm I st (mpiFlags flags).transposedIn (fun me => (localSizeGuru dims howmany.toNat comm.length me bwd (mpiFlags flags)).nIn)
        (fun me => (localSizeGuru dims howmany.toNat comm.length me bwd (mpiFlags flags)).startIn)
        fun q v => X (scrambleIn (mpiFlags flags).scrambledIn comm.length bwd (dims.map fun d => d.n.toNat) q) v) →
      MFrame comm space (decide (Preserves flags)) I O st (f I O st) ∧
      Holds howmany.toNat comm O (f I O st) (mpiFlags flags).transposedOut (fun me => (localSizeGuru dims howmany.toNat comm.length me bwd (mpiFlags flags)).nOut)
        (fun me => (localSizeGuru dims howmany.toNat comm.length me bwd (mpiFlags flags)).startOut)
        fun q v => mdft bwd (dims.map fun d => d.n.toNat) (scrambleOut (mpiFlags flags).scrambledOut comm.length bwd (dims.map fun d => d.n.toNat) q) fun j => X j v := by
  unfold mpiPlanGuruDft
  cases hp : planGuruDft dims howmany I0 O0 comm bwd (mpiFlags flags) space with
  | none => exact ⟨by simp, fun f sts' h => by simp at h⟩
  | some p =>
    have ep : p.comm = comm := by
      obtain ⟨_, _, _, _, rfl⟩ := guru_inv hp
      exact (mkDft_fields _ _ _ _ _ _ _ _).2.2.2.1
    obtain ⟨h1, h2⟩ := C59_apiplan_in_step hE n flags (p := .dft p) (nt := nt) (sts := sts) (by show p.comm ≠ []; rw [ep]; exact hne) (by show p.comm.Nodup; rw [ep]; exact hnd)
      (by show ∀ w ∈ p.comm, _; rw [ep]; exact hs)
    refine ⟨h1, fun f sts' h hh hn hlay hsp hrow hap I O st X hr hX => ?_⟩
    obtain ⟨d, fl, hnd', hf⟩ := (h2 _ _ h).2.2 f rfl
    rw [← hnd']
    exact C58_guru_dft hj hc (anySerial_sound hc hmp he) hh hnd hn hlay hsp hrow hap hp hf hr hX

open Classical in
/-- **C59** with C56: `fftw_mpi_plan_many_transpose` from the user's call to the result of execution -/
theorem C59_many_transpose (hE : Together junk ub cexp E) (hj : ∀ p w, (junk p w).length = MpiExchange.nPes p.toProb) (hc : ExactCexp cexp) {mp : Genfft.Magic} (hmp : Props.MagicOk mp) {szR : ℕ}
    (he : ∀ w, ∀ d ∈ (E.env w).slvdescs, Registered.Library cexp mp szR d.slv)
    {nx ny howmany xblock yblock : ℤ} {inp out : ℕ → Ptr} {comm : Comm} (hne : comm ≠ []) (hnd : comm.Nodup) {flags : MapFlags.U32} {space : ℕ → ℕ} (n : ℕ)
    {nt : ℕ} {sts : PSts} (hs : ∀ w ∈ comm, (sts w).nthr = nt) :
    mpiPlanManyTranspose E n nx ny howmany xblock yblock inp out comm flags space sts ≠ .error .desync ∧
    ∀ f sts', mpiPlanManyTranspose E n nx ny howmany xblock yblock inp out comm flags space sts = .ok (some f, sts') → 0 < howmany →
      (∀ r < comm.length, block nx.toNat (blockOr nx xblock comm.length) r * ny.toNat * howmany.toNat ≤ space (comm.at r) ∧
        nx.toNat * block ny.toNat (blockOr ny yblock comm.length) r * howmany.toNat ≤ space (comm.at r)) →
      MApart comm space (inp (comm.at 0) = out (comm.at 0)) inp out →
      ∀ (I O : ℕ → Ptr) (st : Dist), MCompat comm space (inp (comm.at 0) = out (comm.at 0)) I O st →
      MFrame comm space (decide (Preserves flags)) I O st (f I O st) ∧
      ∀ i j v : ℕ, (i : ℤ) < nx → (j : ℤ) < ny → (v : ℤ) < howmany →
        let xb := blockOr nx xblock comm.length
        let yb := blockOr ny yblock comm.length
        (f I O st (comm.at (j / yb))).mem (O (comm.at (j / yb)) +
            ((if (mpiFlags flags).transposedOut then colOff ny.toNat howmany.toNat yb j i v else rowOff nx.toNat howmany.toNat yb j i v : ℕ) : ℤ)) =
          (st (comm.at (i / xb))).mem (I (comm.at (i / xb)) +
            ((if (mpiFlags flags).transposedIn then colOff nx.toNat howmany.toNat xb i j v else rowOff ny.toNat howmany.toNat xb i j v : ℕ) : ℤ)) := by
  unfold mpiPlanManyTranspose
  cases hp : planManyTranspose nx ny howmany xblock yblock inp out comm (mpiFlags flags) space with
  | none => exact ⟨by simp, fun f sts' h => by simp at h⟩
  | some p =>
    have ep : p.comm = comm := by
      unfold planManyTranspose at hp
      split at hp
      · simp at hp
      simp only at hp
      split at hp
      · simp at hp
      obtain rfl := Option.some.inj hp
      rfl
    obtain ⟨h1, h2⟩ := C59_apiplan_in_step hE n flags (p := .transpose p) (nt := nt) (sts := sts) (by show p.comm ≠ []; rw [ep]; exact hne) (by show p.comm.Nodup; rw [ep]; exact hnd)
      (by show ∀ w ∈ p.comm, _; rw [ep]; exact hs)
    refine ⟨h1, fun f sts' h hv room apart I O st hr => ?_⟩
    obtain ⟨d, fl, hnd', hf⟩ := (h2 _ _ h).2.2 f rfl
    rw [← hnd']
    exact plan_many_transpose_core (fun s h => C57_solvers_sound hj hc s h) (anySerial_sound hc hmp he) hp hv (List.length_pos_iff.2 hne) hnd room apart hf hr

end

/-! ### non-vacuity

`fftw_mpi_plan_many_dft(1, {64}, 10, ...)` on two processes, of which the first has all the data.  The processes have the codelet n1_64 and dft/nop.c for their serial problems; their counters, and
the costs they estimate, differ. -/

attribute [local instance] sortLib
open Registered Genfft

/-- `late`: whether the time for planning is over -/
noncomputable def exTogEnv (late : Bool) : Env :=
  ⟨[⟨DftS.direct (notw exMp 64 0 0 0 0), .dft, [110], 0⟩, ⟨DftS.nop, .dft, [111], 0⟩], fun _ _ => ⟨1, 2, 3, 4⟩,
   ⟨fun _ => late, fun _ => 7, fun _ => false, fun _ => 0, fun _ => false, fun _ _ _ => true, fun _ _ => false⟩⟩

/-- only mpi/dft-serial.c is registered; `tl`: the time limit -/
noncomputable def exTog (late : ℕ → Bool) (tl : Option Int) : MEnv :=
  { reg := [some (.dft, dftSerial fun _ _ _ st => st)], env := fun w => exTogEnv (late w), sig := fun _ _ _ => ⟨1, 2, 3, 4⟩, timer := true, timeMin := 1, timeLimit := 100
    cost := fun w _ => w, time := fun w _ => w, elapsed := fun _ _ => 0, tl := fun _ => tl }

def exTogP : MDftP := mkDft [⟨64, 64, 64⟩] 10 (fun _ => ⟨0, 0⟩) (fun _ => ⟨1, 0⟩) [0, 1] true {} (fun _ => 1280)

def exTogSt (l u : BitVec 20) (w : ℕ) : PSt := ⟨exT0, exT0, ⟨l, u, 0, 0⟩, 1, .ignoreAll, false, false, w, 0, w, 0⟩

/-- the hypotheses of the theorems are met -/
theorem exTog_together : Together exJunk (fun _ _ _ st => st) exCexp (exTog (fun _ => false) none) := by
  refine ⟨fun i d h => ?_, fun w t => rfl, fun w => rfl⟩
  match i, h with
  | 0, h =>
    have e := Option.some.inj (Option.some.inj h)
    rw [← e]
    exact .serial
  | n + 1, h => simp [exTog] at h

/-- the processes make a plan -/
theorem exTog_plans : ∃ f sts', MPlanner.mkplan (exTog (fun _ => false) none) 2 (.dft exTogP) (exTogSt exL exU) = .ok (some f, sts') := by
  refine ⟨?_, ?_, ?h⟩
  case h => rfl

/-- what C59 says of it -/
example : ∃ f, MPlans (MpiSolver exJunk (fun _ _ _ st => st) exCexp) (AnySerial (exTog (fun _ => false) none)) 2 ⟨exL, exU, 0, 1⟩ (.dft exTogP) f := by
  obtain ⟨f, sts', h⟩ := exTog_plans
  exact ⟨f, ((C59_planner_in_step exTog_together 2 (p := .dft exTogP) (fl := ⟨exL, exU, 0, 1⟩) (W := .ignoreAll) (by decide) (by decide) (Or.inl (by decide)) (sts := exTogSt exL exU)
    (fun w _ => ⟨rfl, rfl, rfl, rfl, rfl⟩) (by decide)).2 _ _ h).2.2.2 f rfl⟩

/-- The hypothesis on time limits is needed: here a limit is set, and only process 1 finds, while it plans for itself, that the time is over.  It gives up the search, and the other does not. -/
theorem exTog_timelimit : MPlanner.mkplan (exTog (fun w => decide (w = 1)) (some 1000)) 2 (.dft exTogP) (exTogSt 0 0) = .error .desync := by rfl

end FFTW.Props
