import Verif.Props.Registered
import Verif.Props.ApiR2r

/-!
# A concrete call of the r2r interface

With one registered solver that plans the problem at once, `fftw_plan_many_r2r` with FFTW_ESTIMATE goes through search, wisdom and blessing and returns
the solver's plan, so the hypotheses of the theorems on the r2r interface are met.
-/

namespace FFTW.Registered
open Tensor Spec DftS Planner Api RowMajor RdftS
open MapFlags (U32 FFTW_ESTIMATE)

/-- an environment with one solver for real problems -/
noncomputable def oneE (s : Solver) : Env :=
  ⟨[⟨s, .rdft, [110], 0⟩], fun _ _ => ⟨1,2,3,4⟩,
   ⟨fun _ => false, fun _ => 7, fun _ => false, fun _ => 0, fun _ => false, fun _ _ _ => true, fun _ _ => false⟩⟩

section
variable {s : Solver} {q : RdftP} {pl : Plan} (h : ∀ fl, s.mkplan (.rdft q) fl = .ret (some pl))
include h

theorem one_invoke (rec : Rec) (f : FlagsT) (st : PSt) : invokeSolver rec (oneE s) (.rdft q) s f st =
    .ok (some ⟨pl, 0, false⟩, { st with flags := st.flags, tick := st.tick + 1 }) := by
  unfold invokeSolver
  dsimp only
  rw [h]
  rfl

theorem one_search : search (mkplan (oneE s) 0) (oneE s) (.rdft q) ⟨exL, exU, 0, 0⟩ exS1 =
    .ok (some (⟨pl, 0, false⟩, 0), ⟨exU, exU, 0, 0⟩, ⟨exT0, exT0, ⟨exL, exU, 0, 0⟩, 1, .normal, false, false, 0, 1, 2, 0⟩) := by
  have h0 : search0 (mkplan (oneE s) 0) (oneE s) (.rdft q) ⟨exU, exU, 0, 0⟩ exS1 =
      .ok (some (⟨pl, 0, false⟩, 0), ⟨exT0, exT0, ⟨exL, exU, 0, 0⟩, 1, .normal, false, false, 0, 1, 2, 0⟩) := by
    show search0Loop (mkplan (oneE s) 0) (oneE s) (.rdft q) ⟨exU, exU, 0, 0⟩ [0] none true exS1 = _
    unfold search0Loop
    rw [show (oneE s).slvdescs[0]? = some ⟨s, .rdft, [110], 0⟩ from rfl]
    dsimp only
    rw [one_invoke h]
    simp [consider, search0Loop, timeoutP, PSt.estimatep]
  unfold search
  have hl : searchLoop (mkplan (oneE s) 0) (oneE s) (.rdft q) exL relaxTab exU none ⟨exL, exU, 0, 0⟩ exS1 =
      .ok (some (⟨pl, 0, false⟩, 0), ⟨exU, exU, 0, 0⟩, some exU, ⟨exT0, exT0, ⟨exL, exU, 0, 0⟩, 1, .normal, false, false, 0, 1, 2, 0⟩) := by
    have hx : (if LEQ exL (exU &&& ~~~ 0) then exU &&& ~~~ 0 else exU) = exU := by decide
    unfold relaxTab
    rw [searchLoop]
    dsimp only
    rw [hx, if_pos (by simp), h0]
  dsimp only
  rw [hl]
  rfl

theorem one_pass1 : mkplan (oneE s) 1 (.rdft q) exS0 = .ok (some pl, exS2) := by
  have hl : hlookup exS1 exSig ⟨exL, exU, 0, 0⟩ = .ok none := by
    show (ofOpt (htabLookup exT0 exSig _) >>= _) = _
    rw [lookup_exT0]
    rfl
  refine (mkplanBody_eq _ (oneE s) (.rdft q) exS0 exS1 rfl rfl rfl rfl none hl).trans ?_
  show doSearch _ _ _ exSig _ = _
  unfold doSearch
  rw [if_neg (by decide), one_search h]
  show (ofOpt (htabInsert exT0 exSig ⟨exU, exU, 0, 0⟩ 0) >>= _) >>= _ = _
  rw [insert_exT0]
  rfl

set_option maxHeartbeats 2000000 in
theorem one_pass2 : mkplan (oneE s) 1 (.rdft q) exS3 = .ok (some pl, exS5) := by
  have hl : hlookup exS4 exSig ⟨exL, exU, 0, 1⟩ = .ok (some exSol) := by
    show (ofOpt (htabLookup exT0 exSig _) >>= _) = _
    rw [lookup_exT0]
    show ofOpt (htabLookup (exT1 _) exSig _) = _
    rw [lookup_exT1]
    rfl
  refine (mkplanBody_eq _ (oneE s) (.rdft q) exS3 exS4 rfl rfl rfl rfl _ hl).trans ?_
  show useWisdom _ _ _ exSig _ _ = _
  unfold useWisdom
  dsimp only
  rw [show (oneE s).slvdescs[exSol.slvndx.toNat]? = some ⟨s, .rdft, [110], 0⟩ from rfl]
  dsimp only
  rw [show (oneE s).world.wisdomOk exS4.tick (.rdft q) exSol.fl = true from rfl, if_neg (by decide), if_neg (by decide), if_neg (by rw [not_not]; rfl), one_invoke h]
  show (ofOpt (htabInsert exT0 exSig ⟨exU, exU, 0, 7⟩ 0) >>= _) >>= _ = _
  rw [insert_exT0]
  rfl

theorem one_plans : mkapiplan (oneE s) 1 (-1) FFTW_ESTIMATE (.rdft q) exS = .ok (some pl, exS6) := by
  have h1 : apiMkplan (oneE s) 1 (-1) FFTW_ESTIMATE (.rdft q) 0 exS = .ok (some pl, exS2) := by
    unfold apiMkplan mkplan0
    rw [ex_mapflags]
    show (mkplan (oneE s) 1 (.rdft q) exS0 >>= _) = _
    rw [one_pass1 h]
    rfl
  have h2 : apiMkplan (oneE s) 1 (-1) FFTW_ESTIMATE (.rdft q) BLESSING exS2 = .ok (some pl, exS5) := by
    unfold apiMkplan mkplan0
    rw [ex_mapflags]
    show (mkplan (oneE s) 1 (.rdft q) exS3 >>= _) = _
    rw [one_pass2 h]
    rfl
  have h3 : firstPlan (oneE s) 1 (-1) FFTW_ESTIMATE (.rdft q) exS = .ok (some pl, FFTW_ESTIMATE, exS2) := by
    unfold firstPlan
    rw [patLevels_ex, if_neg (by decide)]
    unfold patLoop
    rw [show FFTW_ESTIMATE &&& ~~~(FFTW_ESTIMATE ||| FFTW_MEASURE ||| MapFlags.FFTW_PATIENT ||| MapFlags.FFTW_EXHAUSTIVE) ||| FFTW_ESTIMATE = FFTW_ESTIMATE by decide, h1]
    rfl
  have h4 : recreate (oneE s) 1 (-1) (.rdft q) (some pl) FFTW_ESTIMATE exS2 = .ok (some pl, exS5) := by
    unfold recreate
    rw [h2]
    rfl
  unfold mkapiplan
  rw [h3]
  show (recreate (oneE s) 1 (-1) (.rdft q) (some pl) FFTW_ESTIMATE exS2 >>= _) = _
  rw [h4]
  show (forget exS5 .accursed >>= _) = _
  unfold forget
  rw [mkhashtab_eq]
  rfl

end

attribute [local instance] sortLib

/-- a halfcomplex-to-real transform of size 17, from an array stored backwards -/
def exRA : List IODim × List IODim := ([⟨17, -2, 3⟩], [⟨1, 0, 0⟩])
def exRP : RdftP := ⟨[(⟨17, -2, 3⟩, .HC2R00)], some [], ⟨0, 40⟩, ⟨1, 0⟩⟩
theorem exR_problem : guruR2rProblem some exRA.1 exRA.2 ⟨0, 40⟩ ⟨1, 0⟩ [.FFTW_HC2R] = some (some (.rdft exRP)) := by
  with_unfolding_all rfl

noncomputable def exRs : Solver := genericR exCexp .HC2R00 fun _ _ => true
noncomputable def exRpl : Plan := .rdft (genericHc2r (genericW exCexp 17) 17 (-2) 3)

theorem exR_mk (fl : Flags) : exRs.mkplan (.rdft exRP) fl = .ret (some exRpl) := by
  simp [exRs, exRP, exRpl, genericR, rdftSolver, prime17]

theorem exR_plans : planGuruR2r some (oneE exRs) 1 (-1) FFTW_ESTIMATE exRA.1 exRA.2 ⟨0, 40⟩ ⟨1, 0⟩ [.FFTW_HC2R] exS = .ok (some ⟨exRpl, .rdft exRP, 0⟩, exS6) := by
  unfold planGuruR2r planWith
  rw [exR_problem]
  dsimp only
  rw [one_plans exR_mk]

theorem exR_sound : ∀ d ∈ (oneE exRs).slvdescs, d.slv.Sound := by
  intro d hd
  simp only [oneE, List.mem_singleton] at hd
  subst hd
  exact C34_generic exCexp_exact (Or.inr rfl) (fun _ _ => true)

/-- all hypotheses of `C53_guru_r2r` are met -/
example (st : State) (h : 2 ≤ st.next) :
    DoesR2r [.FFTW_HC2R] (guruB exRA.1 exRA.2) (¬ Preserves FFTW_ESTIMATE) ⟨0, 40⟩ ⟨1, 0⟩ st (execute ⟨exRpl, .rdft exRP, 0⟩ st) := by
  have hbox : ∀ b, Box (guruB exRA.1 exRA.2).v b → b = [0] := by
    intro b hb
    obtain ⟨x, xs, hx, h0, rfl⟩ := box_cons.1 (show Box [1] b from hb)
    obtain rfl := box_nil.1 h0
    obtain rfl : x = 0 := by omega
    rfl
  have hbox' : ∀ k, Box (guruB exRA.1 exRA.2).n k → ∃ i, i < 17 ∧ k = [i] := by
    intro b hb
    obtain ⟨x, xs, hx, h0, rfl⟩ := box_cons.1 (show Box [17] b from hb)
    obtain rfl := box_nil.1 h0
    exact ⟨x, hx, rfl⟩
  have hsep : SeparateR (guruB exRA.1 exRA.2) ⟨0, 40⟩ ⟨1, 0⟩ := by
    right
    rintro q' ⟨e, _, rfl⟩ ⟨e', _, he'⟩
    have h2 := congrArg Ptr.blk he'
    have : (0 : ℕ) = 1 := h2
    omega
  have ok : R2rOk [.FFTW_HC2R] (guruB exRA.1 exRA.2) FFTW_ESTIMATE ⟨0, 40⟩ ⟨1, 0⟩ := by
    refine ⟨List.Forall₂.cons (by simp) List.Forall₂.nil, ?_, fun _ => ?_, hsep, fun he => absurd (congrArg Ptr.blk he) (by decide)⟩
    all_goals
      intro b k b' k' hb hk hb' hk' he
      obtain rfl := hbox b hb
      obtain rfl := hbox b' hb'
      obtain ⟨i, hi, rfl⟩ := hbox' k hk
      obtain ⟨i', hi', rfl⟩ := hbox' k' hk'
      simp [guruBatch, exRA, ofIo, dot] at he
      exact ⟨rfl, by rw [he]⟩
  obtain ⟨h1, h2⟩ := C53_guru_r2r (oneE exRs) exR_sound (fun x y h => (Option.some.inj h).symm) exR_plans ok
    (inp' := ⟨0, 40⟩) (out' := ⟨1, 0⟩) (st := st) ⟨Iff.rfl, hsep, by show 0 < st.next; omega, by show 1 < st.next; omega⟩
  rw [h2]; exact h1

end FFTW.Registered
