import Verif.Proofs.DftSolvers
import Verif.Proofs.RdftSolvers
import Verif.Proofs.DftR2hc

/-!
# C50: splitting a problem into smaller ones; C51: complex transforms from real ones; C32: rank-0 problems

All statements: for every problem (any rank, sizes, strides, batch, in place or not), every setting of the planner's flags, every
outcome of the heuristics that decide whether the solver is tried (`taste`), and whatever correct child plans the planner supplies, the
plan made is correct (`Solver.Sound`, Spec/Sound.lean), and the child problems asked for are well-formed.
-/

namespace FFTW.Props
open Tensor (CLib)
open DftS (Taste)

variable [CLib]

/-- C50: looping over one batch dimension, complex transforms -/
theorem C50_dft_loop (vecloopDim : Int) (buddies : List Int) (taste : Taste) : (DftS.vrankGeq1 vecloopDim buddies taste).Sound :=
  DftS.vrankGeq1_sound vecloopDim buddies taste
/-- C50: splitting a multi-dimensional complex transform -/
theorem C50_dft_split (spltrnk : Int) (buddies : List Int) (taste : Taste) : (DftS.rankGeq2 spltrnk buddies taste).Sound :=
  DftS.rankGeq2_sound spltrnk buddies taste
/-- C50: copying before or after an in-place complex transform -/
theorem C50_dft_indirect (after : Bool) (taste : Taste) : (DftS.indirect after taste).Sound := DftS.indirect_sound after taste
/-- C50: transposing before and after an in-place complex transform -/
theorem C50_dft_indirect_transpose (taste : Taste) : (DftS.indirectTranspose taste).Sound := DftS.indirectTranspose_sound taste
/-- C50: doing nothing -/
theorem C50_dft_nop : DftS.nop.Sound := DftS.nop_sound
/-- C50: looping over one batch dimension, real transforms -/
theorem C50_rdft_loop (vecloopDim : Int) (buddies : List Int) (taste : Taste) : (RdftS.vrankGeq1 vecloopDim buddies taste).Sound :=
  RdftS.vrankGeq1_sound vecloopDim buddies taste
/-- C50: splitting a multi-dimensional real-to-real transform (of mixed kinds) -/
theorem C50_rdft_split (spltrnk : Int) (buddies : List Int) (taste : Taste) : (RdftS.rankGeq2 spltrnk buddies taste).Sound :=
  RdftS.rankGeq2_sound spltrnk buddies taste
/-- C50: copying before or after an in-place real transform -/
theorem C50_rdft_indirect (after : Bool) (taste : Taste) : (RdftS.indirect after taste).Sound := RdftS.indirect_sound after taste
/-- C50: doing nothing -/
theorem C50_rdft_nop : RdftS.nop.Sound := RdftS.nop_sound

/-- C32: every way of solving a rank-0 problem (copy loops in either order, tiled, through a buffer, `memcpy`, square in-place
transposition plain, tiled and through a buffer) copies the batch to its place; `szR` = `sizeof(R)` determines the tile size -/
theorem C32_rank0_solver (szR : ℕ) (alg : RdftS.Rank0) : (RdftS.rank0 szR alg).Sound := RdftS.rank0_sound szR alg

/-- C51: a complex DFT computed as two half-complex transforms (real and imaginary part) and one combining pass; complex rank-0 problems
computed as real ones -/
theorem C51_dft_via_real (taste : Taste) : (RdftS.dftR2hc taste).Sound := RdftS.dftR2hc_sound taste

/-- C51 in elementary terms: the half-complex transforms of the real and imaginary parts determine the DFT, by the formulas of the
combining pass -/
theorem C51_combine (n : ℕ) (x y : ℕ → ℝ) (k : ℕ) (hk : k < n) :
    (∑ j ∈ Finset.range n, Spec.ω n ^ (j * k) * (⟨x j, y j⟩ : ℂ)) =
      let A : ℕ → ℝ := fun k => ∑ j ∈ Finset.range n, Spec.r2hcK 0 0 n j k * x j
      let B : ℕ → ℝ := fun k => ∑ j ∈ Finset.range n, Spec.r2hcK 0 0 n j k * y j
      if k = 0 ∨ 2 * k = n then ⟨A k, B k⟩
      else if 2 * k < n then ⟨A k - B (n - k), B k + A (n - k)⟩
      else ⟨A (n - k) + B k, B (n - k) - A k⟩ := RdftS.r2hc_dft n x y k hk

/-- they do make plans -/
example (fl : Flags) (c : Plan) : (∃ m k, (RdftS.dftR2hc fun _ _ => true).mkplan
    (.dft ⟨[⟨7, 2, 2⟩], some [], ⟨0, 0⟩, ⟨0, 1⟩, ⟨1, 0⟩, ⟨1, 1⟩⟩) fl = .plan m {} k ∧ ∃ f, k (some c) = .ret (some (.dft f))) :=
  ⟨_, _, rfl, _, rfl⟩
example (fl : Flags) : ∃ f, (RdftS.rank0 8 .iterCo).mkplan
    (.rdft ⟨[], some [⟨7, 3, 5⟩, ⟨4, 21, 35⟩], ⟨0, 0⟩, ⟨1, 0⟩⟩) fl = .ret (some (.rdft f)) := ⟨_, rfl⟩

end FFTW.Props
