import Verif.Props.MpiApi

/-!
# C58: a distributed transform and its inverse, a case
-/

namespace FFTW.Props
open Tensor Spec FFTW.Mpi

attribute [local instance] sortLib

/-- the 3 × 3 transform on three processes of Props/MpiDft in the other direction -/
def exDftF : MDftP := mkDft [⟨3, 1, 3⟩, ⟨3, 3, 1⟩] 1 (fun _ => ⟨0, 0⟩) (fun _ => ⟨0, 0⟩) [0, 1, 2] false { transposedOut := true } (fun _ => 6)

theorem exDftF_plan (cexp : ℕ → ℤ → ℝ × ℝ) (ub : MDftP → MPlan) (fl : Flags) : ∃ f, MPlans (MpiSolver exJunk ub cexp) (exB cexp) 2 fl (.dft exDftF) f := by
  have e : (if (false || fl.nd) = true then exDftF.O else exDftF.I) = fun _ => (⟨0, 0⟩ : Ptr) := by split <;> rfl
  have h3 : Primes.isPrime 3 = some true := by
    rw [Primes.isPrime_some (by norm_num)]; simpa using (by norm_num : Nat.Prime 3)
  have hloc : ∀ (sz vec : List Dim), dftPr false sz vec (⟨0, 0⟩ : Ptr) ⟨0, 0⟩ = .dft ⟨[⟨3, 2, 2⟩], some [], ⟨0, 0⟩, ⟨0, 1⟩, ⟨0, 0⟩, ⟨0, 1⟩⟩ →
      exB cexp (fl.modify {}) (dftPr false sz vec (⟨0, 0⟩ : Ptr) ⟨0, 0⟩) (.dft (DftS.genericApply (DftS.genericW cexp 3) 3 2 2)) := by
    intro sz vec h
    right
    rw [h]
    simp [DftS.generic, DftS.dftSolver, h3]
  have hg : ∃ f, (geq2TransposedMk false exDftF fl).Runs (exB cexp) (MPlans (MpiSolver exJunk ub cexp) (exB cexp) 1) fl (some f) := by
    have hsz : exDftF.sz = [⟨3, 1, 3⟩, ⟨3, 3, 1⟩] := rfl
    unfold geq2TransposedMk
    simp only [hsz]
    rw [if_neg (by
      have : notSlow exDftF fl = true := by
        unfold notSlow
        rw [show dftSerialApplicable exDftF = false from rfl]
        simp
      rw [this, show preserveOk false exDftF fl = true from rfl]
      decide), e]
    obtain ⟨t, ht⟩ := exDftT_plan cexp ub (fl.modify {})
    refine ⟨_, .loc _ _ _ _ (fun _ => .dft (DftS.genericApply (DftS.genericW cexp 3) 3 2 2)) _ ?_
      (.grp _ _ _ _ (fun _ => t) _ ?_ (.loc _ _ _ _ (fun _ => .dft (DftS.genericApply (DftS.genericW cexp 3) 3 2 2)) _ ?_ (.ret _)))⟩
    · intro me hme x hx
      have : me = 0 ∨ me = 1 ∨ me = 2 := by have : me < 3 := hme; omega
      rcases this with rfl | rfl | rfl
      all_goals
        obtain rfl := Option.some.inj hx
        exact hloc _ _ (by with_unfolding_all rfl)
    · intro me hme x hx
      obtain rfl := Option.some.inj hx
      exact ht
    · intro me hme x hx
      have : me = 0 ∨ me = 1 ∨ me = 2 := by have : me < 3 := hme; omega
      rcases this with rfl | rfl | rfl
      all_goals
        obtain rfl := Option.some.inj hx
        exact hloc _ _ (by with_unfolding_all rfl)
  obtain ⟨f, hf⟩ := hg
  exact ⟨f, fl, by simp [Planner.LEQ], dftRankGeq2Transposed false, .geq2Transposed false, hf⟩

theorem exDft_guru : planGuruDft [⟨3, 1, 3⟩, ⟨3, 3, 1⟩] 1 (fun _ => ⟨0, 0⟩) (fun _ => ⟨0, 0⟩) [0, 1, 2] true { transposedOut := true } (fun _ => 6) = some exDft := by
  with_unfolding_all rfl

theorem exDft_back : planGuruDft ([⟨3, 1, 3⟩, ⟨3, 3, 1⟩].map ADim.exch) 1 (fun _ => ⟨0, 0⟩) (fun _ => ⟨0, 0⟩) [0, 1, 2] (!true) (exchFlags { transposedOut := true }) (fun _ => 6) = some exDftF := by
  with_unfolding_all rfl

theorem exDft_size : ∀ me < 3, (localSizeGuru [⟨3, 1, 3⟩, ⟨3, 3, 1⟩] 1 3 me true { transposedOut := true }).nIn = [1, 3] ∧
    (localSizeGuru [⟨3, 1, 3⟩, ⟨3, 3, 1⟩] 1 3 me true { transposedOut := true }).startIn = [me, 0] := by
  intro me h
  interval_cases me <;> exact ⟨rfl, rfl⟩

/-- all hypotheses of `C58_roundtrip` are met: every process has its row again, 9 times as large -/
example (st : Dist) (h : ∀ w, 0 < (st w).next) (fl : Flags) (ub : MDftP → MPlan) (X : List ℕ → ℕ → ℂ)
    (hX : Holds 1 [0, 1, 2] (fun _ => ⟨0, 0⟩) st false (fun _ => [1, 3]) (fun me => [me, 0]) X) :
    ∃ f g : MPlan, Holds 1 [0, 1, 2] (fun _ => ⟨0, 0⟩) (g (fun _ => ⟨0, 0⟩) (fun _ => ⟨0, 0⟩) (f (fun _ => ⟨0, 0⟩) (fun _ => ⟨0, 0⟩) st)) false (fun _ => [1, 3]) (fun me => [me, 0])
      fun q v => 9 * X q v := by
  obtain ⟨f, hf⟩ := exDft_plan Registered.exCexp ub fl
  obtain ⟨g, hg⟩ := exDftF_plan Registered.exCexp ub fl
  refine ⟨f, g, ?_⟩
  have hap : MApart [0, 1, 2] (fun _ => 6) ((fun _ => (⟨0, 0⟩ : Ptr)) (Comm.at [0, 1, 2] 0) = (fun _ => (⟨0, 0⟩ : Ptr)) (Comm.at [0, 1, 2] 0)) (fun _ => ⟨0, 0⟩) (fun _ => ⟨0, 0⟩) :=
    (exDft_ok fl).apart
  have hrc : MCompat [0, 1, 2] (fun _ => 6) ((fun _ => (⟨0, 0⟩ : Ptr)) (Comm.at [0, 1, 2] 0) = (fun _ => (⟨0, 0⟩ : Ptr)) (Comm.at [0, 1, 2] 0)) (fun _ => ⟨0, 0⟩) (fun _ => ⟨0, 0⟩) st :=
    ⟨fun w _ => h w, fun w _ => h w, fun _ _ _ => rfl, fun h => absurd rfl h⟩
  have hlay : LayoutOk [⟨3, 1, 3⟩, ⟨3, 3, 1⟩] (List.length [0, 1, 2]) { transposedOut := true } := (show _ ∧ _ from ⟨rfl, .inr ⟨by decide, by decide, by decide⟩⟩)
  have hsp : ∀ me < List.length [0, 1, 2], 2 * (localSizeGuru [⟨3, 1, 3⟩, ⟨3, 3, 1⟩] (Int.toNat 1) (List.length [0, 1, 2]) me true { transposedOut := true }).alloc ≤ (fun _ => 6 : ℕ → ℕ) (Comm.at [0, 1, 2] me) := by
    intro me hme
    have : me = 0 ∨ me = 1 ∨ me = 2 := by have : me < 3 := hme; omega
    rcases this with rfl | rfl | rfl <;> decide
  have hX' : Holds (Int.toNat 1) [0, 1, 2] (fun _ => ⟨0, 0⟩) st false (fun me => (localSizeGuru [⟨3, 1, 3⟩, ⟨3, 3, 1⟩] (Int.toNat 1) (List.length [0, 1, 2]) me true { transposedOut := true }).nIn)
      (fun me => (localSizeGuru [⟨3, 1, 3⟩, ⟨3, 3, 1⟩] (Int.toNat 1) (List.length [0, 1, 2]) me true { transposedOut := true }).startIn) X := by
    intro me hme l
    obtain ⟨e1, e2⟩ := exDft_size me hme
    change Index (localSizeGuru [⟨3, 1, 3⟩, ⟨3, 3, 1⟩] 1 3 me true { transposedOut := true }).nIn l → ∀ v < 1, cplx 1 [0, 1, 2] _ st
      (me, rowPos (localSizeGuru [⟨3, 1, 3⟩, ⟨3, 3, 1⟩] 1 3 me true { transposedOut := true }).nIn l) v =
      X (List.zipWith (· + ·) (localSizeGuru [⟨3, 1, 3⟩, ⟨3, 3, 1⟩] 1 3 me true { transposedOut := true }).startIn l) v
    rw [e1, e2]
    exact hX me hme l
  have hn : ∀ d ∈ ([⟨3, 1, 3⟩, ⟨3, 3, 1⟩] : List ADim), 1 < d.n ∧ d.n < Primes.trialBound := by
    decide +kernel
  have hrun := (C58_guru_dft (junk := exJunk) (fun p w => by simp [exJunk]) Registered.exCexp_exact (exB_sound Registered.exCexp_exact) (by norm_num) (by decide) hn hlay
    hsp (fun _ d hd => by simp at hd) hap exDft_guru hf hrc hX').1
  have key := C58_roundtrip (junk := exJunk) (fun p w => by simp [exJunk]) Registered.exCexp_exact (exB_sound Registered.exCexp_exact) (by norm_num) (by decide) hn hlay
    hsp (fun _ d hd => by simp at hd) hap hap exDft_guru exDft_back hf hg hrc (J := fun _ => ⟨0, 0⟩) ⟨fun w hw => lt_of_lt_of_le (h w) (hrun.frame w hw).next,
      fun w hw => lt_of_lt_of_le (h w) (hrun.frame w hw).next, fun _ _ _ => rfl, fun h => absurd rfl h⟩ hX'
  intro me hme l hl v hv
  have k := key me hme l
  obtain ⟨e1, e2⟩ := exDft_size me hme
  change Index (localSizeGuru [⟨3, 1, 3⟩, ⟨3, 3, 1⟩] 1 3 me true { transposedOut := true }).nIn l → ∀ v < 1, cplx 1 [0, 1, 2] _ _
      (me, rowPos (localSizeGuru [⟨3, 1, 3⟩, ⟨3, 3, 1⟩] 1 3 me true { transposedOut := true }).nIn l) v =
      ((9 : ℕ) : ℂ) * X (List.zipWith (· + ·) (localSizeGuru [⟨3, 1, 3⟩, ⟨3, 3, 1⟩] 1 3 me true { transposedOut := true }).startIn l) v at k
  rw [e1, e2] at k
  exact_mod_cast k hl v hv

end FFTW.Props
