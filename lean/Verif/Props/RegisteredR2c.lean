import Verif.Props.RegisteredR2r
import Verif.Props.RegisteredRdft
import Verif.Props.CodeletsR

/-!
# A concrete call of the r2c interface

As Props/RegisteredR2r.lean: with a generated codelet as the only solver, `fftw_plan_guru_dft_r2c` returns the plan that runs the codelet.
-/

namespace FFTW.Registered
open Tensor Spec DftS Planner Api RowMajor
open RdftS (KR2c)
open MapFlags (U32 FFTW_ESTIMATE)

/-- an environment with one solver for r2c and c2r problems -/
noncomputable def oneE2 (s : Solver) : Env :=
  ⟨[⟨s, .rdft2, [110], 0⟩], fun _ _ => ⟨1,2,3,4⟩,
   ⟨fun _ => false, fun _ => 7, fun _ => false, fun _ => 0, fun _ => false, fun _ _ _ => true, fun _ _ => false⟩⟩

section
variable {s : Solver} {q : Rdft2P} {pl : Plan} (h : ∀ fl, s.mkplan (.rdft2 q) fl = .ret (some pl))
include h

theorem one2_invoke (rec : Rec) (f : FlagsT) (st : PSt) : invokeSolver rec (oneE2 s) (.rdft2 q) s f st =
    .ok (some ⟨pl, 0, false⟩, { st with flags := st.flags, tick := st.tick + 1 }) := by
  unfold invokeSolver
  dsimp only
  rw [h]
  rfl

theorem one2_search : search (mkplan (oneE2 s) 0) (oneE2 s) (.rdft2 q) ⟨exL, exU, 0, 0⟩ exS1 =
    .ok (some (⟨pl, 0, false⟩, 0), ⟨exU, exU, 0, 0⟩, ⟨exT0, exT0, ⟨exL, exU, 0, 0⟩, 1, .normal, false, false, 0, 1, 2, 0⟩) := by
  have h0 : search0 (mkplan (oneE2 s) 0) (oneE2 s) (.rdft2 q) ⟨exU, exU, 0, 0⟩ exS1 =
      .ok (some (⟨pl, 0, false⟩, 0), ⟨exT0, exT0, ⟨exL, exU, 0, 0⟩, 1, .normal, false, false, 0, 1, 2, 0⟩) := by
    show search0Loop (mkplan (oneE2 s) 0) (oneE2 s) (.rdft2 q) ⟨exU, exU, 0, 0⟩ [0] none true exS1 = _
    unfold search0Loop
    rw [show (oneE2 s).slvdescs[0]? = some ⟨s, .rdft2, [110], 0⟩ from rfl]
    dsimp only
    rw [one2_invoke h]
    simp [consider, search0Loop, timeoutP, PSt.estimatep]
  unfold search
  have hl : searchLoop (mkplan (oneE2 s) 0) (oneE2 s) (.rdft2 q) exL relaxTab exU none ⟨exL, exU, 0, 0⟩ exS1 =
      .ok (some (⟨pl, 0, false⟩, 0), ⟨exU, exU, 0, 0⟩, some exU, ⟨exT0, exT0, ⟨exL, exU, 0, 0⟩, 1, .normal, false, false, 0, 1, 2, 0⟩) := by
    have hx : (if LEQ exL (exU &&& ~~~ 0) then exU &&& ~~~ 0 else exU) = exU := by decide
    unfold relaxTab
    rw [searchLoop]
    dsimp only
    rw [hx, if_pos (by simp), h0]
  dsimp only
  rw [hl]
  rfl

theorem one2_pass1 : mkplan (oneE2 s) 1 (.rdft2 q) exS0 = .ok (some pl, exS2) := by
  have hl : hlookup exS1 exSig ⟨exL, exU, 0, 0⟩ = .ok none := by
    show (ofOpt (htabLookup exT0 exSig _) >>= _) = _
    rw [lookup_exT0]
    rfl
  refine (mkplanBody_eq _ (oneE2 s) (.rdft2 q) exS0 exS1 rfl rfl rfl rfl none hl).trans ?_
  show doSearch _ _ _ exSig _ = _
  unfold doSearch
  rw [if_neg (by decide), one2_search h]
  show (ofOpt (htabInsert exT0 exSig ⟨exU, exU, 0, 0⟩ 0) >>= _) >>= _ = _
  rw [insert_exT0]
  rfl

set_option maxHeartbeats 2000000 in
theorem one2_pass2 : mkplan (oneE2 s) 1 (.rdft2 q) exS3 = .ok (some pl, exS5) := by
  have hl : hlookup exS4 exSig ⟨exL, exU, 0, 1⟩ = .ok (some exSol) := by
    show (ofOpt (htabLookup exT0 exSig _) >>= _) = _
    rw [lookup_exT0]
    show ofOpt (htabLookup (exT1 _) exSig _) = _
    rw [lookup_exT1]
    rfl
  refine (mkplanBody_eq _ (oneE2 s) (.rdft2 q) exS3 exS4 rfl rfl rfl rfl _ hl).trans ?_
  show useWisdom _ _ _ exSig _ _ = _
  unfold useWisdom
  dsimp only
  rw [show (oneE2 s).slvdescs[exSol.slvndx.toNat]? = some ⟨s, .rdft2, [110], 0⟩ from rfl]
  dsimp only
  rw [show (oneE2 s).world.wisdomOk exS4.tick (.rdft2 q) exSol.fl = true from rfl, if_neg (by decide), if_neg (by decide), if_neg (by rw [not_not]; rfl), one2_invoke h]
  show (ofOpt (htabInsert exT0 exSig ⟨exU, exU, 0, 7⟩ 0) >>= _) >>= _ = _
  rw [insert_exT0]
  rfl

theorem one2_plans : mkapiplan (oneE2 s) 1 (-1) FFTW_ESTIMATE (.rdft2 q) exS = .ok (some pl, exS6) := by
  have h1 : apiMkplan (oneE2 s) 1 (-1) FFTW_ESTIMATE (.rdft2 q) 0 exS = .ok (some pl, exS2) := by
    unfold apiMkplan mkplan0
    rw [ex_mapflags]
    show (mkplan (oneE2 s) 1 (.rdft2 q) exS0 >>= _) = _
    rw [one2_pass1 h]
    rfl
  have h2 : apiMkplan (oneE2 s) 1 (-1) FFTW_ESTIMATE (.rdft2 q) BLESSING exS2 = .ok (some pl, exS5) := by
    unfold apiMkplan mkplan0
    rw [ex_mapflags]
    show (mkplan (oneE2 s) 1 (.rdft2 q) exS3 >>= _) = _
    rw [one2_pass2 h]
    rfl
  have h3 : firstPlan (oneE2 s) 1 (-1) FFTW_ESTIMATE (.rdft2 q) exS = .ok (some pl, FFTW_ESTIMATE, exS2) := by
    unfold firstPlan
    rw [patLevels_ex, if_neg (by decide)]
    unfold patLoop
    rw [show FFTW_ESTIMATE &&& ~~~(FFTW_ESTIMATE ||| FFTW_MEASURE ||| MapFlags.FFTW_PATIENT ||| MapFlags.FFTW_EXHAUSTIVE) ||| FFTW_ESTIMATE = FFTW_ESTIMATE by decide, h1]
    rfl
  have h4 : recreate (oneE2 s) 1 (-1) (.rdft2 q) (some pl) FFTW_ESTIMATE exS2 = .ok (some pl, exS5) := by
    unfold recreate
    rw [h2]
    rfl
  unfold mkapiplan
  rw [h3]
  show (recreate (oneE2 s) 1 (-1) (.rdft2 q) (some pl) FFTW_ESTIMATE exS2 >>= _) = _
  rw [h4]
  show (forget exS5 .accursed >>= _) = _
  unfold forget
  rw [mkhashtab_eq]
  rfl

end

attribute [local instance] sortLib

/-- three in-place r2c transforms of size 9 in the padded format -/
def ex2A : List IODim × List IODim := ([⟨9, 1, 1⟩], [⟨3, 10, 5⟩])
def ex2P : Rdft2P := ⟨[⟨9, 2, 2⟩], some [⟨3, 10, 10⟩], ⟨0, 0⟩, ⟨0, 1⟩, ⟨0, 0⟩, ⟨0, 1⟩, .R2HC⟩
theorem ex2_problem : guruR2cProblem some ex2A.1 ex2A.2 ⟨0, 0⟩ ⟨0, 0⟩ = some (some (.rdft2 ex2P)) := by
  with_unfolding_all rfl

noncomputable def ex2c : KR2c := Genfft.r2cf exMp false 9
noncomputable def ex2s : Solver := Rdft2S.direct2 ex2c
theorem ex2_mk : ∃ pl, ∀ fl, ex2s.mkplan (.rdft2 ex2P) fl = .ret (some pl) := by
  have h : tornk1 [(⟨3, 10, 10⟩ : Dim)] = some ⟨3, 10, 10⟩ := by with_unfolding_all rfl
  have e : ∀ fl, ∃ pl, ex2s.mkplan (.rdft2 ex2P) fl = .ret (some pl) := by
    intro fl
    simp only [ex2s, Rdft2S.direct2, Rdft2S.orShifted, Rdft2S.rdft2Solver, ex2P, h]
    rw [if_pos]
    · exact ⟨_, rfl⟩
    · refine ⟨rfl, rfl, ?_⟩
      right; right
      with_unfolding_all rfl
  have e' : ∀ fl fl', ex2s.mkplan (.rdft2 ex2P) fl = ex2s.mkplan (.rdft2 ex2P) fl' := fun _ _ => rfl
  obtain ⟨pl, hpl⟩ := e ⟨0, 0, 0, 0⟩
  exact ⟨pl, fun fl => (e' _ _).trans hpl⟩

theorem ex2_sound : ∀ d ∈ (oneE2 ex2s).slvdescs, d.slv.Sound := by
  intro d hd
  simp only [oneE2, List.mem_singleton] at hd
  subst hd
  exact Props.C52_direct2 _ (Props.C47_r2cf_codelet exMp exMp_ok false 9)

/-- all hypotheses of `C54_guru_r2c` are met: planning succeeds, and running the plan transforms all rows in place -/
theorem ex2_runs : ∃ ap st', planGuruR2c some (oneE2 ex2s) 1 (-1) FFTW_ESTIMATE ex2A.1 ex2A.2 ⟨0, 0⟩ ⟨0, 0⟩ exS = .ok (some ap, st') ∧
    ∀ st : State, 1 ≤ st.next → DoesR2c (guruRB ex2A.1 ex2A.2) True ⟨0, 0⟩ (.interleaved ⟨0, 0⟩) st (execute ap st) := by
  obtain ⟨pl, hpl⟩ := ex2_mk
  have hplan : planGuruR2c some (oneE2 ex2s) 1 (-1) FFTW_ESTIMATE ex2A.1 ex2A.2 ⟨0, 0⟩ ⟨0, 0⟩ exS = .ok (some ⟨pl, .rdft2 ex2P, 0⟩, exS6) := by
    unfold planGuruR2c planWith
    rw [ex2_problem]
    dsimp only
    rw [one2_plans hpl]
  refine ⟨_, _, hplan, fun st hst => ?_⟩
  have hv : ∀ b, Box (guruRB ex2A.1 ex2A.2).v b → ∃ i, i < 3 ∧ b = [i] := by
    intro b hb
    obtain ⟨x, xs, hx, h0, rfl⟩ := box_cons.1 (show Box [3] b from hb)
    obtain rfl := box_nil.1 h0
    exact ⟨x, hx, rfl⟩
  have hn : ∀ b, Box (guruRB ex2A.1 ex2A.2).n b → b = [] := fun b hb => box_nil.1 (show Box [] b from hb)
  have hr : ∀ (b i : ℕ), (guruRB ex2A.1 ex2A.2).real [b] [] i = 10 * b + i := by
    intro b i; simp [guruR2c, ex2A, ofIo, dot, lastOf]
  have hcx : ∀ (b q : ℕ), (guruRB ex2A.1 ex2A.2).cplx [b] [] q = 5 * b + q := by
    intro b i; simp [guruR2c, ex2A, ofIo, dot, lastOf]
  have hm : (guruRB ex2A.1 ex2A.2).m = 9 := rfl
  have harr : (guruRB ex2A.1 ex2A.2).Arranged ⟨0, 0⟩ (.interleaved ⟨0, 0⟩) := by
    left
    refine ⟨rfl, ?_, ?_, ?_⟩
    · intro x hx
      have hx : x ∈ [3] := hx
      rw [List.mem_singleton] at hx
      omega
    · intro b j hb hj
      obtain ⟨b, hb, rfl⟩ := hv b hb
      obtain rfl := hn j hj
      rw [hr, hcx]
      show (⟨0, 0⟩ : Ptr) + (10 * (b : ℤ) + ((0 : ℕ) : ℤ)) = (⟨0, 0⟩ : Ptr) + 2 * (5 * (b : ℤ) + ((0 : ℕ) : ℤ))
      congr 1; push_cast; ring
    · intro b j b' j' q hb hj hb' hj' h h'
      obtain ⟨b, hb, rfl⟩ := hv b hb
      obtain rfl := hn j hj
      obtain ⟨b', hb', rfl⟩ := hv b' hb'
      obtain rfl := hn j' hj'
      have hrow : ∀ (b : ℕ) (q : Ptr), (guruRB ex2A.1 ex2A.2).Row ⟨0, 0⟩ (.interleaved ⟨0, 0⟩) [b] [] q → 10 * (b : ℤ) ≤ q.off ∧ q.off < 10 * b + 10 := by
        intro b q h
        simp only [RBatch.Row, hr, hcx, hm] at h
        rcases h with ⟨x, ⟨i, hi, rfl⟩, rfl⟩ | ⟨x, ⟨p, hp, rfl⟩, rfl | rfl⟩
        · show 10 * (b : ℤ) ≤ 0 + (10 * b + i) ∧ 0 + (10 * (b : ℤ) + i) < _; omega
        · show 10 * (b : ℤ) ≤ 0 + 2 * (5 * b + p) ∧ 0 + 2 * (5 * (b : ℤ) + p) < _; omega
        · show 10 * (b : ℤ) ≤ 0 + (2 * (5 * b + p) + 1) ∧ 0 + (2 * (5 * (b : ℤ) + p) + 1) < _; omega
      have h1 := hrow b q h
      have h2 := hrow b' q h'
      rw [show b = b' by omega]
      exact ⟨rfl, rfl⟩
  have ok : R2cOk (guruRB ex2A.1 ex2A.2) FFTW_ESTIMATE ⟨0, 0⟩ (.interleaved ⟨0, 0⟩) := by
    refine ⟨⟨?_, ?_⟩, fun _ => ?_, harr⟩
    · intro b k q b' k' q' hb hk hq hb' hk' hq' he
      obtain ⟨b, hb, rfl⟩ := hv b hb
      obtain rfl := hn k hk
      obtain ⟨b', hb', rfl⟩ := hv b' hb'
      obtain rfl := hn k' hk'
      rw [hcx, hcx] at he
      rw [hm] at hq hq'
      refine ⟨?_, rfl, by omega⟩
      rw [show b = b' by omega]
    · rintro x y - - he
      have := congrArg Ptr.off he
      have : (0 : ℤ) + 2 * x = 0 + (2 * y + 1) := this
      omega
    · intro b k q b' k' q' hb hk hq hb' hk' hq' he
      obtain ⟨b, hb, rfl⟩ := hv b hb
      obtain rfl := hn k hk
      obtain ⟨b', hb', rfl⟩ := hv b' hb'
      obtain rfl := hn k' hk'
      rw [hr, hr] at he
      rw [hm] at hq hq'
      refine ⟨?_, rfl, by omega⟩
      rw [show b = b' by omega]
  obtain ⟨h1, h2⟩ := C54_guru_r2c (oneE2 ex2s) ex2_sound (fun x y h => (Option.some.inj h).symm) hplan (by
      intro d hd
      simp [ex2A] at hd
      rcases hd with rfl | rfl <;> decide) ok
    (inp' := ⟨0, 0⟩) (out' := ⟨0, 0⟩) (st := st) ⟨Iff.rfl, fun h => absurd rfl h, by show 0 < st.next; omega, by show 0 < st.next; omega⟩
  rw [h2]
  have e : R2cDestroys FFTW_ESTIMATE ⟨0, 0⟩ (.interleaved ⟨0, 0⟩) = True := eq_true (Or.inr rfl)
  rw [e] at h1
  exact h1

end FFTW.Registered
