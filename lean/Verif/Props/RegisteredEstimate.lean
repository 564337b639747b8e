import Verif.Props.Estimate
import Verif.Props.Registered
import Verif.Props.RegisteredRdft
import Verif.Model.Threads
import Verif.Model.ApiR2r

/-!
# C63: no registered solver drops the flag ESTIMATE
-/

namespace FFTW
open Planner

theorem need_keeps {p : Problem} {m : FMod} {k : Plan → Mk (Option α)} (hm : m.ureset &&& Planner.ESTIMATE = 0) (hk : ∀ c, (k c).KeepsEstimate) : (Mk.need p m k).KeepsEstimate := by
  refine ⟨hm, fun r => ?_⟩
  cases r with
  | none => trivial
  | some c => exact hk c

theorem bind_keeps {w : Mk α} {k : α → Mk β} (hw : w.KeepsEstimate) (hk : ∀ c, (k c).KeepsEstimate) : (w.bind k).KeepsEstimate := by
  induction w with
  | ret a => exact hk a
  | plan p m g ih => exact ⟨hw.1, fun r => ih r (hw.2 r)⟩

open DftS RdftS in
theorem needW_keeps {w : Mk (Option WPlan)} {k : WPlan → Mk (Option α)} (hw : w.KeepsEstimate) (hk : ∀ c, (k c).KeepsEstimate) : (Mk.needW w k).KeepsEstimate := by
  refine bind_keeps hw fun r => ?_
  cases r with
  | none => trivial
  | some c => exact hk c
open DftS RdftS in
theorem needH_keeps {w : Mk (Option HPlan)} {k : HPlan → Mk (Option α)} (hw : w.KeepsEstimate) (hk : ∀ c, (k c).KeepsEstimate) : (Mk.needH w k).KeepsEstimate := by
  refine bind_keeps hw fun r => ?_
  cases r with
  | none => trivial
  | some c => exact hk c
open DftS RdftS Rdft2S in
theorem needC_keeps {w : Mk (Option CPlan)} {k : CPlan → Mk (Option α)} (hw : w.KeepsEstimate) (hk : ∀ c, (k c).KeepsEstimate) : (Mk.needC w k).KeepsEstimate := by
  refine bind_keeps hw fun r => ?_
  cases r with
  | none => trivial
  | some c => exact hk c

macro "keeps" : tactic => `(tactic| repeat' first
  | exact trivial
  | rfl
  | exact BitVec.zero_and
  | assumption
  | (refine need_keeps ?_ (fun _ => ?_))
  | (refine needW_keeps ?_ (fun _ => ?_))
  | (refine needH_keeps ?_ (fun _ => ?_))
  | (refine needC_keeps ?_ (fun _ => ?_))
  | (refine bind_keeps ?_ (fun _ => ?_))
  | (refine ⟨?_, fun _ => ?_⟩)
  | split)

namespace Registered
open Tensor DftS Genfft

section
variable [CLib]

theorem ctWith_keeps (fm : Flags → FMod) (hfm : ∀ fl, (fm fl).ureset &&& Planner.ESTIMATE = 0) (rdx : ℤ) (dec : Dec) (w : Inferior)
    (hw : ∀ t rio iio fl, (w t rio iio fl).KeepsEstimate) (taste : Taste) : (ctWith fm rdx dec w taste).KeepsEstimate := by
  intro p fl
  unfold ctWith dftSolver
  simp only
  keeps
  all_goals first | exact hw _ _ _ _ | exact hfm _

theorem indirect_keeps (after : Bool) (taste : Taste) : (indirect after taste).KeepsEstimate := by
  intro p fl; unfold indirect dftSolver; simp only; keeps
theorem indirectTranspose_keeps (taste : Taste) : (indirectTranspose taste).KeepsEstimate := by
  intro p fl; unfold indirectTranspose dftSolver; simp only; keeps
theorem rankGeq2_keeps (a) (b) (taste : Taste) : (rankGeq2 a b taste).KeepsEstimate := by
  intro p fl; unfold rankGeq2 dftSolver; simp only; keeps
theorem vrankGeq1_keeps (a) (b) (taste : Taste) : (vrankGeq1 a b taste).KeepsEstimate := by
  intro p fl; unfold vrankGeq1 dftSolver; simp only; keeps
theorem buffered_keeps (a) (b) (taste : Taste) : (buffered a b taste).KeepsEstimate := by
  intro p fl; unfold buffered dftSolver; simp only; keeps
theorem generic_keeps (a) (taste : Taste) : (generic a taste).KeepsEstimate := by
  intro p fl; unfold generic dftSolver; simp only; keeps
theorem rader_keeps (a) (taste : Taste) : (rader a taste).KeepsEstimate := by
  intro p fl; unfold rader dftSolver; simp only; keeps
theorem bluestein_keeps (a) (taste : Taste) : (bluestein a taste).KeepsEstimate := by
  intro p fl; unfold bluestein dftSolver; simp only; keeps
theorem nop_keeps : nop.KeepsEstimate := by
  intro p fl; unfold nop dftSolver; simp only; keeps
theorem direct_keeps (c) : (direct c).KeepsEstimate := by
  intro p fl; unfold direct dftSolver; simp only; keeps
theorem directbuf_keeps (c) (t) : (directbuf c t).KeepsEstimate := by
  intro p fl; unfold directbuf dftSolver; simp only; keeps

/-- C63: no solver of the standard configuration for complex transforms drops the flag ESTIMATE -/
theorem C63_standard_dft_solvers {cexp : ℕ → ℤ → ℝ × ℝ} {mp : Magic} (szR : ℕ) (s : Solver) (h : DftStandard cexp mp szR s) : s.KeepsEstimate := by
  cases h with
  | indirect a t => exact indirect_keeps a t
  | indirectTranspose t => exact indirectTranspose_keeps t
  | rankGeq2 d _ t => exact rankGeq2_keeps _ _ t
  | vrankGeq1 d _ t => exact vrankGeq1_keeps _ _ t
  | buffered i _ t => exact buffered_keeps _ _ t
  | generic t => exact generic_keeps _ t
  | rader t => exact rader_keeps _ t
  | bluestein t => exact bluestein_keeps _ t
  | nop => exact nop_keeps
  | ctGeneric dec _ t t' => exact ctWith_keeps _ (fun _ => rfl) _ _ _ (by intro t rio iio fl; unfold dftwGeneric; keeps) _
  | ctGenericbuf r _ b _ t t' => exact ctWith_keeps _ (fun _ => rfl) _ _ _ (by intro t rio iio fl; unfold dftwGenericbuf; keeps) _
  | n1 n _ => exact direct_keeps _
  | n1buf n _ t => exact directbuf_keeps _ t
  | t1 n hn t t' => exact ctWith_keeps _ (fun _ => rfl) _ _ _ (by intro t rio iio fl; unfold dftwDirect; keeps) _
  | t1buf n hn t t' => exact ctWith_keeps _ (fun _ => rfl) _ _ _ (by intro t rio iio fl; unfold dftwDirectbuf; keeps) _
  | t2 n hn t t' => exact ctWith_keeps _ (fun _ => rfl) _ _ _ (by intro t rio iio fl; unfold dftwDirect; keeps) _
  | t2buf n hn t t' => exact ctWith_keeps _ (fun _ => rfl) _ _ _ (by intro t rio iio fl; unfold dftwDirectbuf; keeps) _
  | q1 n hn t => exact ctWith_keeps _ (fun _ => rfl) _ _ _ (by intro t rio iio fl; unfold dftwDirectsq; keeps) _

theorem RdftS_indirect_keeps (a : Bool) (t : Taste) : (RdftS.indirect a t).KeepsEstimate := by
  intro p fl; unfold RdftS.indirect RdftS.rdftSolver; simp only; keeps
theorem RdftS_rank0_keeps (a : ℕ) (b) : (RdftS.rank0 a b).KeepsEstimate := by
  intro p fl; unfold RdftS.rank0 RdftS.rdftSolver; simp only; keeps
theorem RdftS_vrank3Transpose_keeps (a) (t : Taste) : (RdftS.vrank3Transpose a t).KeepsEstimate := by
  intro p fl; unfold RdftS.vrank3Transpose RdftS.rdftSolver; simp only; keeps
  cases a <;> simp only [RdftS.Tr3.mk] <;> first | exact trivial | (unfold RdftS.mkGcd RdftS.Mk.needIf; simp only; keeps) | (unfold RdftS.mkCut RdftS.Mk.needIf; simp only; keeps)
theorem RdftS_vrankGeq1_keeps (a b) (t : Taste) : (RdftS.vrankGeq1 a b t).KeepsEstimate := by
  intro p fl; unfold RdftS.vrankGeq1 RdftS.rdftSolver; simp only; keeps
theorem RdftS_nop_keeps : (RdftS.nop).KeepsEstimate := by
  intro p fl; unfold RdftS.nop RdftS.rdftSolver; simp only; keeps
theorem RdftS_buffered_keeps (a b) (t : Taste) : (RdftS.buffered a b t).KeepsEstimate := by
  intro p fl; unfold RdftS.buffered RdftS.rdftSolver; simp only; keeps
theorem RdftS_genericR_keeps (a) (k) (t : Taste) : (RdftS.genericR a k t).KeepsEstimate := by
  intro p fl; unfold RdftS.genericR RdftS.rdftSolver; simp only; keeps
theorem RdftS_rankGeq2_keeps (a b) (t : Taste) : (RdftS.rankGeq2 a b t).KeepsEstimate := by
  intro p fl; unfold RdftS.rankGeq2 RdftS.rdftSolver; simp only; keeps
theorem RdftS_dftR2hc_keeps (t : Taste) : (RdftS.dftR2hc t).KeepsEstimate := by
  intro p fl; unfold RdftS.dftR2hc dftSolver; simp only; keeps
theorem RdftS_rdftDht_keeps (t : Taste) : (RdftS.rdftDht t).KeepsEstimate := by
  intro p fl; unfold RdftS.rdftDht RdftS.rdftSolver; simp only; keeps
theorem RdftS_dhtR2hc_keeps (t : Taste) : (RdftS.dhtR2hc t).KeepsEstimate := by
  intro p fl; unfold RdftS.dhtR2hc RdftS.rdftSolver; simp only; keeps
theorem RdftS_dhtRader_keeps (a) (b) (t : Taste) : (RdftS.dhtRader a b t).KeepsEstimate := by
  intro p fl; unfold RdftS.dhtRader RdftS.rdftSolver; simp only; keeps
theorem RdftS_directR_keeps (c) : (RdftS.directR c).KeepsEstimate := by
  intro p fl; unfold RdftS.directR RdftS.rdftSolver; simp only; keeps
theorem RdftS_directbufR_keeps (c) : (RdftS.directbufR c).KeepsEstimate := by
  intro p fl; unfold RdftS.directbufR RdftS.rdftSolver; simp only; keeps
theorem RdftS_directR2r_keeps (c) : (RdftS.directR2r c).KeepsEstimate := by
  intro p fl; unfold RdftS.directR2r RdftS.rdftSolver; simp only; keeps
theorem Reodft_redft00Pad_keeps (t : Taste) : (Reodft.redft00Pad t).KeepsEstimate := by
  intro p fl; unfold Reodft.redft00Pad RdftS.rdftSolver; simp only; keeps
theorem Reodft_rodft00Pad_keeps (t : Taste) : (Reodft.rodft00Pad t).KeepsEstimate := by
  intro p fl; unfold Reodft.rodft00Pad RdftS.rdftSolver; simp only; keeps
theorem Reodft_reodft00Split_keeps (a) (t : Taste) : (Reodft.reodft00Split a t).KeepsEstimate := by
  intro p fl; unfold Reodft.reodft00Split RdftS.rdftSolver; simp only; keeps
theorem Reodft_reodft010_keeps (a) (t : Taste) : (Reodft.reodft010 a t).KeepsEstimate := by
  intro p fl; unfold Reodft.reodft010 RdftS.rdftSolver; simp only; keeps
theorem Reodft_reodft11Radix2_keeps (a) (t : Taste) : (Reodft.reodft11Radix2 a t).KeepsEstimate := by
  intro p fl; unfold Reodft.reodft11Radix2 RdftS.rdftSolver; simp only; keeps
theorem Reodft_reodft11Odd_keeps (t : Taste) : (Reodft.reodft11Odd t).KeepsEstimate := by
  intro p fl; unfold Reodft.reodft11Odd RdftS.rdftSolver; simp only; keeps
theorem Rdft2S_vrankGeq1_keeps (a b) (t : Taste) : (Rdft2S.vrankGeq1 a b t).KeepsEstimate := by
  intro p fl; unfold Rdft2S.vrankGeq1 Rdft2S.rdft2Solver; simp only; keeps
theorem Rdft2S_nop2_keeps : (Rdft2S.nop2).KeepsEstimate := by
  intro p fl; unfold Rdft2S.nop2 Rdft2S.orShifted Rdft2S.rdft2Solver; simp only; keeps
theorem Rdft2S_rank0_keeps : (Rdft2S.rank0).KeepsEstimate := by
  intro p fl; unfold Rdft2S.rank0 Rdft2S.rdft2Solver; simp only; keeps
theorem Rdft2S_buffered2_keeps (a b) (t : Taste) : (Rdft2S.buffered2 a b t).KeepsEstimate := by
  intro p fl; unfold Rdft2S.buffered2 Rdft2S.rdft2Solver; simp only; keeps
theorem Rdft2S_rankGeq2_keeps (a b) (t : Taste) : (Rdft2S.rankGeq2 a b t).KeepsEstimate := by
  intro p fl; unfold Rdft2S.rankGeq2 Rdft2S.rdft2Solver; simp only; keeps
theorem Rdft2S_rdft2Rdft_keeps (a) (t : Taste) : (Rdft2S.rdft2Rdft a t).KeepsEstimate := by
  intro p fl; unfold Rdft2S.rdft2Rdft Rdft2S.rdft2Solver; simp only; keeps
theorem Rdft2S_direct2_keeps (c) : (Rdft2S.direct2 c).KeepsEstimate := by
  intro p fl; unfold Rdft2S.direct2 Rdft2S.orShifted Rdft2S.rdft2Solver; simp only; keeps

theorem hc2hcWith_keeps (fm : Flags → FMod) (hfm : ∀ fl, (fm fl).ureset &&& Planner.ESTIMATE = 0) (rdx : ℤ) (w : RdftS.HInferior)
    (hw : ∀ k t IO fl, (w k t IO fl).KeepsEstimate) (taste : Taste) : (RdftS.hc2hcWith fm rdx w taste).KeepsEstimate := by
  intro p fl
  unfold RdftS.hc2hcWith RdftS.rdftSolver
  simp only
  keeps
  all_goals first | exact hw _ _ _ _ | exact hfm _

theorem ctHc2c_keeps (via : Hc2cKind) (rdx : ℤ) (w : Rdft2S.CInferior)
    (hw : ∀ k t cr ci fl, (w k t cr ci fl).KeepsEstimate) (taste : Taste) : (Rdft2S.ctHc2c via rdx w taste).KeepsEstimate := by
  intro p fl
  unfold Rdft2S.ctHc2c Rdft2S.rdft2Solver
  simp only
  keeps
  all_goals exact hw _ _ _ _ _

/-- C63: no solver of the standard configuration for real transforms drops the flag ESTIMATE -/
theorem C63_standard_rdft_solvers {mp : Genfft.Magic} {cexp : ℕ → ℤ → ℝ × ℝ} (szR : ℕ) (s : Solver) (h : RdftStandard mp cexp szR s) : s.KeepsEstimate := by
  cases h with
  | indirect a t => exact RdftS_indirect_keeps a t
  | rank0 a => exact RdftS_rank0_keeps _ a
  | vrank3Transpose a t => exact RdftS_vrank3Transpose_keeps a t
  | vrankGeq1 d _ t => exact RdftS_vrankGeq1_keeps _ _ t
  | nop => exact RdftS_nop_keeps
  | buffered i _ t => exact RdftS_buffered_keeps _ _ t
  | generic k _ t => exact RdftS_genericR_keeps _ k t
  | rankGeq2 d _ t => exact RdftS_rankGeq2_keeps _ _ t
  | dftR2hc t => exact RdftS_dftR2hc_keeps t
  | rdftDht t => exact RdftS_rdftDht_keeps t
  | dhtR2hc t => exact RdftS_dhtR2hc_keeps t
  | dhtRader pad t => exact RdftS_dhtRader_keeps _ pad t
  | vrankGeq1_2 d _ t => exact Rdft2S_vrankGeq1_keeps _ _ t
  | nop2 => exact Rdft2S_nop2_keeps
  | rank0_2 => exact Rdft2S_rank0_keeps
  | buffered2 i _ t => exact Rdft2S_buffered2_keeps _ _ t
  | rankGeq2_2 d _ t => exact Rdft2S_rankGeq2_keeps _ _ t
  | rdft2Rdft t => exact Rdft2S_rdft2Rdft_keeps _ t
  | direct c _ => exact RdftS_directR_keeps c
  | directbuf c _ => exact RdftS_directbufR_keeps c
  | direct2 c _ => exact Rdft2S_direct2_keeps c
  | directR2r c _ => exact RdftS_directR2r_keeps c
  | hc2hcGeneric t t' => exact hc2hcWith_keeps _ (fun _ => rfl) _ _ (by intro k t IO fl; unfold RdftS.hc2hcGeneric; keeps) _
  | hc2hcDirect c _ b t t' => exact hc2hcWith_keeps _ (fun _ => rfl) _ _ (by intro k t IO fl; unfold RdftS.hc2hcDirect; keeps) _
  | hc2cDirect via c _ b t t' => exact ctHc2c_keeps _ _ _ (by intro k t cr ci fl; unfold Rdft2S.hc2cDirect; keeps) _
  | redft00Pad t => exact Reodft_redft00Pad_keeps t
  | rodft00Pad t => exact Reodft_rodft00Pad_keeps t
  | reodft00Split t => exact Reodft_reodft00Split_keeps _ t
  | reodft010 t => exact Reodft_reodft010_keeps _ t
  | reodft11Radix2 t => exact Reodft_reodft11Radix2_keeps _ t
  | reodft11Odd t => exact Reodft_reodft11Odd_keeps t

/-! ### threads -/

omit [CLib] in
theorem collect_keeps {α : Type} (mk : ℕ → Mk (Option α)) (h : ∀ i, (mk i).KeepsEstimate) : ∀ n, (Thr.collect mk n).KeepsEstimate
  | 0 => trivial
  | n + 1 => by
    have := collect_keeps mk h n
    have hn := h n
    unfold Thr.collect
    keeps

omit [CLib] in
theorem withNthr_keeps {α : Type} (n : ℕ) (t : Mk α) (h : t.KeepsEstimate) : (Thr.withNthr n t).KeepsEstimate := by
  induction t with
  | ret a => trivial
  | plan p m k ih => exact ⟨h.1, fun r => ih r (h.2 r)⟩

/-- C63: nor do the solvers that divide the work among threads, if the solvers they are built from do not -/
theorem C63_threads_dft_loop (S : Thr.Sched) (d : ℤ) (b) (t : Taste) : (DftS.thrVrankGeq1 S d b t).KeepsEstimate := by
  intro p fl; unfold DftS.thrVrankGeq1 dftSolver; simp only; keeps
  all_goals (refine collect_keeps _ (fun _ => ?_) _; keeps)

theorem C63_threads_rdft_loop (S : Thr.Sched) (d : ℤ) (b) (t : Taste) : (RdftS.thrVrankGeq1 S d b t).KeepsEstimate := by
  intro p fl; unfold RdftS.thrVrankGeq1 RdftS.rdftSolver; simp only; keeps
  all_goals (refine collect_keeps _ (fun _ => ?_) _; keeps)

theorem C63_threads_rdft2_loop (S : Thr.Sched) (d : ℤ) (b) (t : Taste) : (Rdft2S.thrVrankGeq1 S d b t).KeepsEstimate := by
  intro p fl; unfold Rdft2S.thrVrankGeq1 Rdft2S.rdft2Solver; simp only; keeps
  all_goals (refine collect_keeps _ (fun _ => ?_) _; keeps)

theorem C63_threads_ct (S : Thr.Sched) (rdx : ℤ) (dec : Dec) (w : Inferior) (hw : ∀ t rio iio fl, (w t rio iio fl).KeepsEstimate) (t : Taste) :
    (DftS.thrCt S rdx dec w t).KeepsEstimate := by
  refine ctWith_keeps _ (fun _ => BitVec.zero_and) _ _ _ ?_ t
  intro t rio iio fl
  unfold thrInferior
  have h : ∀ i, _ := fun i => collect_keeps (fun i => Thr.withNthr (Thr.inner t.mc fl.nthr)
      (w { t with mb := t.mb + i * Thr.blockSize t.mc fl.nthr, mc := Thr.blockLen t.mc fl.nthr i } rio iio { fl with nthr := Thr.inner t.mc fl.nthr }))
    (fun _ => withNthr_keeps _ _ (hw _ _ _ _)) i
  have h1 := h (Thr.count t.mc fl.nthr)
  simp only
  keeps

theorem C63_threads_hc2hc (S : Thr.Sched) (rdx : ℤ) (w : RdftS.HInferior) (hw : ∀ k t IO fl, (w k t IO fl).KeepsEstimate) (t : Taste) :
    (RdftS.thrHc2hc S rdx w t).KeepsEstimate := by
  refine hc2hcWith_keeps _ (fun _ => BitVec.zero_and) _ _ ?_ t
  intro k t IO fl
  unfold RdftS.thrHInferior
  simp only
  keeps
  all_goals (refine collect_keeps _ (fun _ => withNthr_keeps _ _ (hw _ _ _ _)) _)

/-- C63: planning with FFTW_ESTIMATE with the solvers of the library leaves the arrays alone -/
theorem C63_library (env : Planner.Env) {mp : Genfft.Magic} {cexp : ℕ → ℤ → ℝ × ℝ} (szR : ℕ)
    (hs : ∀ d ∈ env.slvdescs, DftStandard cexp mp szR d.slv ∨ RdftStandard mp cexp szR d.slv) (n : ℕ) (tl : ℝ) (flags : MapFlags.U32)
    (hf : flags &&& MapFlags.FFTW_ESTIMATE ≠ 0) (p : Problem) (st st' : Planner.PSt) (r : Option Plan)
    (h : Planner.mkapiplan env n tl flags p st = .ok (r, st')) : st'.runs = st.runs :=
  Props.C63_estimate env (fun d hd => (hs d hd).elim (C63_standard_dft_solvers szR _) (C63_standard_rdft_solvers szR _)) n tl flags hf p st st' r h

/-- what `X(mkapiplan)` returns to any planning function -/
theorem planWith_quiet (env : Planner.Env) (hE : ∀ d ∈ env.slvdescs, d.slv.KeepsEstimate) (n : ℕ) (tl : ℝ) (flags : MapFlags.U32)
    (hf : flags &&& MapFlags.FFTW_ESTIMATE ≠ 0) (sign : ℤ) (prb : C (Option Problem)) (st st' : Planner.PSt) (r : Option Api.ApiPlan)
    (h : Api.planWith env n tl flags sign prb st = .ok (r, st')) : st'.runs = st.runs := by
  unfold Api.planWith at h
  split at h
  · simp at h
  · simp only [Except.ok.injEq, Prod.mk.injEq] at h; rw [h.2]
  · split at h
    · simp at h
    · rename_i h1
      simp only [Except.ok.injEq, Prod.mk.injEq] at h; rw [← h.2]
      exact Props.C63_estimate env hE n tl flags hf _ _ _ _ h1
    · rename_i h1
      simp only [Except.ok.injEq, Prod.mk.injEq] at h; rw [← h.2]
      exact Props.C63_estimate env hE n tl flags hf _ _ _ _ h1

theorem c2rFlags_estimate {flags : MapFlags.U32} (hf : flags &&& MapFlags.FFTW_ESTIMATE ≠ 0) (a b : Ptr) :
    Api.c2rFlags flags a b &&& MapFlags.FFTW_ESTIMATE ≠ 0 := by
  unfold Api.c2rFlags
  split
  · intro e
    apply hf
    ext i hi
    have a := congrArg (fun b => b.getLsbD i) e
    simp only [BitVec.getLsbD_and, BitVec.getLsbD_or, BitVec.getLsbD_zero] at a
    simp only [← BitVec.getLsbD_eq_getElem, BitVec.getLsbD_and, BitVec.getLsbD_zero]
    revert a
    cases flags.getLsbD i <;> cases MapFlags.FFTW_ESTIMATE.getLsbD i <;> simp [hi]
  · exact hf

/-- C63 for the planning functions themselves: with FFTW_ESTIMATE each of them leaves the arrays alone, whatever the arguments (also invalid ones) -/
theorem C63_api (env : Planner.Env) (hE : ∀ d ∈ env.slvdescs, d.slv.KeepsEstimate) (n : ℕ) (tl : ℝ) (flags : MapFlags.U32)
    (hf : flags &&& MapFlags.FFTW_ESTIMATE ≠ 0) (st st' : Planner.PSt) (r : Option Api.ApiPlan) (chk : Int → C Int) (a : Api.Many) (kinds : List Spec.R2rKind)
    (dims howmany : List Api.IODim) (inp out ri ii ro io : Ptr) (sign : Int)
    (h : Api.planManyDft env n tl flags a st = .ok (r, st') ∨ Api.planManyR2c env n tl flags a st = .ok (r, st') ∨ Api.planManyC2r env n tl flags a st = .ok (r, st') ∨
      Api.planManyR2r env n tl flags a kinds st = .ok (r, st') ∨ Api.planGuruDft chk env n tl flags dims howmany inp out sign st = .ok (r, st') ∨
      Api.planGuruSplitDft chk env n tl flags dims howmany ri ii ro io st = .ok (r, st') ∨ Api.planGuruR2c chk env n tl flags dims howmany inp out st = .ok (r, st') ∨
      Api.planGuruC2r chk env n tl flags dims howmany inp out st = .ok (r, st') ∨ Api.planGuruSplitR2c chk env n tl flags dims howmany inp ro io st = .ok (r, st') ∨
      Api.planGuruSplitC2r chk env n tl flags dims howmany ri ii out st = .ok (r, st') ∨ Api.planGuruR2r chk env n tl flags dims howmany inp out kinds st = .ok (r, st')) :
    st'.runs = st.runs := by
  have q := fun s p => planWith_quiet env hE n tl flags hf s p st st' r
  have qc := fun x y s p => planWith_quiet env hE n tl _ (c2rFlags_estimate hf x y) s p st st' r
  rcases h with h | h | h | h | h | h | h | h | h | h | h
  · exact q _ _ h
  · exact q _ _ h
  · exact qc _ _ _ _ h
  · exact q _ _ h
  · exact q _ _ h
  · exact q _ _ h
  · exact q _ _ h
  · exact qc _ _ _ _ h
  · exact q _ _ h
  · exact qc _ _ _ _ h
  · exact q _ _ h

end

attribute [local instance] Tensor.sortLib in
-- a planner with the codelet n1_64 meets the hypothesis on the solvers; with it a batch of transforms is planned with FFTW_ESTIMATE (`ex_plans`)
example : ∀ d ∈ exE.slvdescs, DftStandard exCexp exMp 8 d.slv ∨ RdftStandard exMp exCexp 8 d.slv := by
  intro d hd
  simp only [exE, List.mem_singleton] at hd
  subst hd
  exact Or.inl (.n1 64 (by decide))

-- without FFTW_ESTIMATE, comparing two candidates runs both
open Planner in
example (pl : Plan) (i j : ℕ) : (consider ⟨[], fun _ _ => ⟨1, 2, 3, 4⟩, ⟨fun _ => false, fun _ => 7, fun _ => true, fun _ => 0, fun _ => false, fun _ _ _ => true, fun _ _ => false⟩⟩
    (some (⟨pl, 0, false⟩, i)) true ⟨pl, 0, false⟩ j ⟨exT0, exT0, ⟨0, 0, 0, 0⟩, 1, .normal, false, false, 0, 0, 0, 5⟩).2.2.runs = 7 := by
  rfl

end Registered
end FFTW
