import Verif.Model.MpiConf
import Verif.Proofs.MpiRank1b
import Verif.Proofs.MpiSign
import Verif.Proofs.MpiRdft2
import Verif.Props.MpiTranspose
import Verif.Props.DftSolvers

/-!
# C57: distributed complex DFTs
-/

namespace FFTW.Props
open Tensor Spec RdftS FFTW.Mpi Planner

section
variable [CLib]

/-- **C57**: all registered MPI solvers of transpositions, complex DFTs and real-to-real transforms are right, if the plans they are given for their subproblems are -/
theorem C57_solvers_sound {junk : TransP → ℕ → List ℤ} (hj : ∀ p w, (junk p w).length = MpiExchange.nPes p.toProb) {ub : MDftP → MPlan}
    {cexp : ℕ → ℤ → ℝ × ℝ} (hc : ExactCexp cexp) (s : MSolver) (h : MpiSolver junk ub cexp s) : s.Sound := by
  cases h with
  | transpose h => exact C56_transposers_sound hj s h
  | geq2 preserve => exact geq2_sound preserve
  | geq2Transposed preserve => exact geq2Transposed_sound preserve
  | serial => exact serial_sound ub
  | bigvec r preserve => exact bigvec_sound r preserve
  | rank1 first preserve => exact rank1_sound hc first preserve
  | rdftGeq2 preserve => exact Rdft.geq2_sound preserve
  | rdftGeq2Transposed preserve => exact Rdft.geq2Transposed_sound preserve
  | rdftSerial => exact Rdft.serial_sound
  | rdftBigvec r preserve => exact Rdft.bigvec_sound r preserve

/-- **C57**.  Whatever plan the planner makes for a distributed complex DFT, from the registered MPI solvers and any correct serial plans, and whatever arrays it is run on (in place if planned so,
apart if not): the output at `k`, on the process and at the position given by the layout of the output, is the sum over all inputs `j`, which are where the layout of the input says, times
`exp(∓2πi Σ j_t k_t/n_t)`; other processes and other memory are left alone, and so is the input if the planner was told to preserve it. -/
theorem C57_distributed_dft {junk : TransP → ℕ → List ℤ} (hj : ∀ p w, (junk p w).length = MpiExchange.nPes p.toProb) {ub : MDftP → MPlan}
    {cexp : ℕ → ℤ → ℝ × ℝ} (hc : ExactCexp cexp) {A : Flags → Problem → Plan → Prop} (hA : ∀ fl x c, Kosher x → A fl x c → FFTW.Sound fl.nd x c)
    {p : MDftP} {fl : Flags} (hp : p.Ok fl) {d : ℕ} {f : MPlan} (hf : MPlans (MpiSolver junk ub cexp) A d fl (.dft p) f)
    {I O : ℕ → Ptr} {st : Dist} (hr : MCompat p.comm p.space p.inpl I O st) :
    MFrame p.comm p.space fl.nd I O st (f I O st) ∧
    ∀ k, Index (p.sz.map fun d => d.n) k → ∀ v < p.vn,
      cplx p.vn p.comm O (f I O st) (p.outAt k) v = mdft p.bwd (p.sz.map fun d => d.n) k fun j => cplx p.vn p.comm I st (p.inAt j) v :=
  dok_cplx (mplans_sound (fun s h => C57_solvers_sound hj hc s h) hA d fl _ f (show MKosher fl (.dft p) from hp) hf) hr

/-- **C57** for the library: serial plans come from the planner with the solvers modelled here -/
theorem C57_library {cexp : ℕ → ℤ → ℝ × ℝ} (hc : ExactCexp cexp) {mp : Genfft.Magic} (hmp : Props.MagicOk mp) {szR : ℕ} {env : Env}
    (he : ∀ d ∈ env.slvdescs, Registered.Library cexp mp szR d.slv) {junk : TransP → ℕ → List ℤ} (hj : ∀ p w, (junk p w).length = MpiExchange.nPes p.toProb) {ub : MDftP → MPlan}
    {p : MDftP} {fl : Flags} (hp : p.Ok fl) {d : ℕ} {f : MPlan} (hf : MPlans (MpiSolver junk ub cexp) (SerialPlans env) d fl (.dft p) f)
    {I O : ℕ → Ptr} {st : Dist} (hr : MCompat p.comm p.space p.inpl I O st) :
    MFrame p.comm p.space fl.nd I O st (f I O st) ∧
    ∀ k, Index (p.sz.map fun d => d.n) k → ∀ v < p.vn,
      cplx p.vn p.comm O (f I O st) (p.outAt k) v = mdft p.bwd (p.sz.map fun d => d.n) k fun j => cplx p.vn p.comm I st (p.inAt j) v :=
  C57_distributed_dft hj hc (serialPlans_sound fun dd hd => Registered.C04_library hc hmp szR _ (he dd hd)) hp hf hr

/-- **C57**: `XM(choose_radix)` terminates with a factor of the size, for every number of processes -/
theorem C57_radix {n npes : ℕ} (hn : 0 < n) (hI : (n : ℤ) < INT_MAX) : radixOf n npes ≠ 0 ∧ radixOf n npes ∣ n := by
  have key : ∀ (fuel r : ℕ), 0 < r → r ≤ n → n < r + fuel → divisorFrom n fuel r ≠ 0 := by
    intro fuel
    induction fuel with
    | zero => intro r h1 h2 h3; omega
    | succ k ih =>
      intro r h1 h2 h3
      rw [divisorFrom]
      split
      · rename_i hc
        refine ih (r + 1) (by omega) ?_ (by omega)
        by_contra h
        have : r = n := by omega
        rw [this, Nat.mod_self] at hc
        exact hc rfl
      · omega
  have h0 : radixOf n npes ≠ 0 := by
    unfold radixOf
    split
    · rename_i hc
      have hd := Nat.div_add_mod n npes
      rw [hc.1] at hd
      intro h0
      rw [h0] at hd
      omega
    · rw [Primes.isqrt_some hI]
      have hs : 0 < Nat.sqrt n := Nat.sqrt_pos.2 hn
      exact key _ _ (by simpa using hs) (by simpa using Nat.sqrt_le_self n) (by simp; omega)
  exact ⟨h0, radixOf_dvd h0⟩

end

/-! ### non-vacuity -/

attribute [local instance] sortLib

/-- three processes, a 3 × 3 matrix by rows, result by columns, in place -/
def exDft : MDftP := mkDft [⟨3, 1, 3⟩, ⟨3, 3, 1⟩] 1 (fun _ => ⟨0, 0⟩) (fun _ => ⟨0, 0⟩) [0, 1, 2] true { transposedOut := true } (fun _ => 6)

theorem exDft_eq : exDft = { sz := [⟨3, 1, 3⟩, ⟨3, 3, 1⟩], vn := 1, I := fun _ => ⟨0, 0⟩, O := fun _ => ⟨0, 0⟩, comm := [0, 1, 2], bwd := true, flags := { transposedOut := true }, space := fun _ => 6 } := rfl

theorem exDft_ok (fl : Flags) : exDft.Ok fl where
  nodup := by decide
  rnk := by decide
  vnpos := by decide
  pos := by decide
  pes := by decide
  pesOut := by decide
  roomIn := by decide
  roomOut := by decide
  roomMid := by intro _ h; exact absurd h (by decide)
  roomSix := by intro r m h; rw [show exDft.sixStep = none from rfl] at h; simp at h
  clear := by intro h; exact absurd h.1 (by decide)
  apart := ⟨fun _ _ _ => rfl, fun h => absurd rfl h, fun h => absurd rfl h⟩

/-- its local problems are solved by dft/generic.c and rdft/nop.c -/
def exB (cexp : ℕ → ℤ → ℝ × ℝ) (fl : Flags) (x : Problem) (c : Plan) : Prop :=
  RdftS.nop.mkplan x fl = .ret (some c) ∨ (DftS.generic cexp fun _ _ => true).mkplan x fl = .ret (some c)

theorem exB_sound {cexp : ℕ → ℤ → ℝ × ℝ} (hc : ExactCexp cexp) (fl : Flags) (x : Problem) (c : Plan) (hk : Kosher x) (h : exB cexp fl x c) : FFTW.Sound fl.nd x c := by
  rcases h with h | h
  · exact exA_sound fl x c hk h
  · have := DftS.C45_generic_solver hc (fun _ _ => true) x fl hk
    rw [h] at this
    exact this c rfl

/-- the transposition -/
def exDftT : TransP := mkTrans 3 3 2 (fun _ => ⟨0, 0⟩) (fun _ => ⟨0, 0⟩) 1 1 [0, 1, 2] {} (fun _ => 6)

theorem exDftT_post (cexp : ℕ → ℤ → ℝ × ℝ) (fl : Flags) (B : Flags → MProblem → MPlan → Prop) (g : Post → MPlan) :
    ∃ post, (mkplansPost exDftT (fun _ => ⟨0, 0⟩) (fun _ => ⟨0, 0⟩) fun post => .ret (some (g post))).Runs (exB cexp) B fl (some (g post)) := by
  refine ⟨⟨fun _ => .rdft fun _ _ st => st, fun _ => .rdft fun _ _ st => st, fun _ => .rdft fun _ _ st => st⟩, ?_⟩
  refine .loc _ _ _ _ (fun _ => .rdft fun _ _ st => st) _ ?_ (.loc _ _ _ _ (fun _ => .rdft fun _ _ st => st) _ ?_ (.loc _ _ _ _ (fun _ => .rdft fun _ _ st => st) _ ?_ (.ret _)))
  · intro me hme x hx
    have : me = 0 ∨ me = 1 ∨ me = 2 := by have : me < 3 := hme; omega
    rcases this with rfl | rfl | rfl
    all_goals
      obtain rfl := Option.some.inj hx
      left
      with_unfolding_all rfl
  · intro me hme x hx
    have : me = 0 ∨ me = 1 ∨ me = 2 := by have : me < 3 := hme; omega
    rcases this with rfl | rfl | rfl
    · obtain rfl := Option.some.inj ((show some (rdft0 (restDims exDftT (direct exDftT ⟨0, 0⟩ ⟨0, 0⟩) 0) (⟨0, 6⟩ : Ptr) ⟨0, 6⟩) = _ by with_unfolding_all rfl).trans hx)
      left
      with_unfolding_all rfl
    · obtain rfl := Option.some.inj ((show some (rdft0 (restDims exDftT (direct exDftT ⟨0, 0⟩ ⟨0, 0⟩) 1) (⟨0, 6⟩ : Ptr) ⟨0, 6⟩) = _ by with_unfolding_all rfl).trans hx)
      left
      with_unfolding_all rfl
    · obtain rfl := Option.some.inj ((show some (rdft0 (restDims exDftT (direct exDftT ⟨0, 0⟩ ⟨0, 0⟩) 2) (⟨0, 6⟩ : Ptr) ⟨0, 6⟩) = _ by with_unfolding_all rfl).trans hx)
      left
      with_unfolding_all rfl
  · intro me hme x hx
    beta_reduce at hx
    rw [show hasCld3 exDftT (direct exDftT ⟨0, 0⟩ ⟨0, 0⟩) = false from rfl] at hx
    simp at hx

theorem exDftT_plan (cexp : ℕ → ℤ → ℝ × ℝ) (ub : MDftP → MPlan) (fl : Flags) : ∃ f, MPlans (MpiSolver exJunk ub cexp) (exB cexp) 1 fl (.transpose exDftT) f := by
  have e : (if (false || fl.nd) = true then exDftT.O else exDftT.I) = fun _ => (⟨0, 0⟩ : Ptr) := by split <;> rfl
  have hg : ∃ f, (pairwiseMk (exJunk exDftT) false exDftT fl).Runs (exB cexp) (MPlans (MpiSolver exJunk ub cexp) (exB cexp) 0) fl (some f) := by
    unfold pairwiseMk
    simp only
    have ha : pairwiseApplicable false exDftT fl = true := rfl
    rw [if_neg (by rw [ha]; decide), if_neg (by decide), e]
    exact ⟨_, (exDftT_post cexp fl (MPlans (MpiSolver exJunk ub cexp) (exB cexp) 0) _).choose_spec⟩
  obtain ⟨f, hf⟩ := hg
  exact ⟨f, fl, by simp [Planner.LEQ], transposePairwise exJunk false, .transpose (.pairwise false), hf⟩

theorem exDft_plan (cexp : ℕ → ℤ → ℝ × ℝ) (ub : MDftP → MPlan) (fl : Flags) : ∃ f, MPlans (MpiSolver exJunk ub cexp) (exB cexp) 2 fl (.dft exDft) f := by
  have e : (if (false || fl.nd) = true then exDft.O else exDft.I) = fun _ => (⟨0, 0⟩ : Ptr) := by split <;> rfl
  have h3 : Primes.isPrime 3 = some true := by
    rw [Primes.isPrime_some (by norm_num)]; simpa using (by norm_num : Nat.Prime 3)
  have hloc : ∀ (sz vec : List Dim), dftPr true sz vec (⟨0, 0⟩ : Ptr) ⟨0, 0⟩ = .dft ⟨[⟨3, 2, 2⟩], some [], ⟨0, 1⟩, ⟨0, 0⟩, ⟨0, 1⟩, ⟨0, 0⟩⟩ →
      exB cexp (fl.modify {}) (dftPr true sz vec (⟨0, 0⟩ : Ptr) ⟨0, 0⟩) (.dft (DftS.genericApply (DftS.genericW cexp 3) 3 2 2)) := by
    intro sz vec h
    right
    rw [h]
    simp [DftS.generic, DftS.dftSolver, h3]
  have hg : ∃ f, (geq2TransposedMk false exDft fl).Runs (exB cexp) (MPlans (MpiSolver exJunk ub cexp) (exB cexp) 1) fl (some f) := by
    have hsz : exDft.sz = [⟨3, 1, 3⟩, ⟨3, 3, 1⟩] := rfl
    unfold geq2TransposedMk
    simp only [hsz]
    rw [if_neg (by
      have : notSlow exDft fl = true := by
        unfold notSlow
        rw [show dftSerialApplicable exDft = false from rfl]
        simp
      rw [this, show preserveOk false exDft fl = true from rfl]
      decide), e]
    obtain ⟨t, ht⟩ := exDftT_plan cexp ub (fl.modify {})
    refine ⟨_, .loc _ _ _ _ (fun _ => .dft (DftS.genericApply (DftS.genericW cexp 3) 3 2 2)) _ ?_
      (.grp _ _ _ _ (fun _ => t) _ ?_ (.loc _ _ _ _ (fun _ => .dft (DftS.genericApply (DftS.genericW cexp 3) 3 2 2)) _ ?_ (.ret _)))⟩
    · intro me hme x hx
      have : me = 0 ∨ me = 1 ∨ me = 2 := by have : me < 3 := hme; omega
      rcases this with rfl | rfl | rfl
      all_goals
        obtain rfl := Option.some.inj hx
        exact hloc _ _ (by with_unfolding_all rfl)
    · intro me hme x hx
      obtain rfl := Option.some.inj hx
      exact ht
    · intro me hme x hx
      have : me = 0 ∨ me = 1 ∨ me = 2 := by have : me < 3 := hme; omega
      rcases this with rfl | rfl | rfl
      all_goals
        obtain rfl := Option.some.inj hx
        exact hloc _ _ (by with_unfolding_all rfl)
  obtain ⟨f, hf⟩ := hg
  exact ⟨f, fl, by simp [Planner.LEQ], dftRankGeq2Transposed false, .geq2Transposed false, hf⟩

/-- all hypotheses of `C57_distributed_dft` are met: a 3 × 3 backward transform by rows on three processes, result by columns -/
example (st : Dist) (h : ∀ w, 0 < (st w).next) (fl : Flags) (ub : MDftP → MPlan) : ∃ f : MPlan, ∀ k0 k1 : ℕ, k0 < 3 → k1 < 3 →
    cplx 1 [0, 1, 2] (fun _ => ⟨0, 0⟩) (f (fun _ => ⟨0, 0⟩) (fun _ => ⟨0, 0⟩) st) (k1, k0) 0 =
      ∑ j0 ∈ Finset.range 3, Complex.exp (1 * (2 * Real.pi * Complex.I) * (j0 * k0) / (3 : ℕ)) * ∑ j1 ∈ Finset.range 3, Complex.exp (1 * (2 * Real.pi * Complex.I) * (j1 * k1) / (3 : ℕ)) *
        cplx 1 [0, 1, 2] (fun _ => ⟨0, 0⟩) st (j0, j1) 0 := by
  obtain ⟨f, hf⟩ := exDft_plan Registered.exCexp ub fl
  refine ⟨f, fun k0 k1 h0 h1 => ?_⟩
  have := (C57_distributed_dft (junk := exJunk) (fun p w => by simp [exJunk]) Registered.exCexp_exact (exB_sound Registered.exCexp_exact) (exDft_ok fl) hf (I := fun _ => ⟨0, 0⟩) (O := fun _ => ⟨0, 0⟩) (st := st)
    ⟨fun w _ => h w, fun w _ => h w, fun _ _ _ => rfl, fun h => absurd rfl h⟩).2 [k0, k1] (.cons h0 (.cons h1 .nil)) 0 (by decide)
  have e : exDft.outAt [k0, k1] = (k1, k0) := by
    interval_cases k0 <;> interval_cases k1 <;> rfl
  rw [e] at this
  refine this.trans ?_
  refine Finset.sum_congr rfl fun j0 h0 => ?_
  congr 1
  refine Finset.sum_congr rfl fun j1 h1 => ?_
  congr 1
  have h0 := Finset.mem_range.1 h0
  have h1 := Finset.mem_range.1 h1
  have ei : exDft.inAt [j0, j1] = (j0, j1) := by
    change j0 < 3 at h0
    change j1 < 3 at h1
    interval_cases j0 <;> interval_cases j1 <;> rfl
  rw [← ei]
  rfl

end FFTW.Props
