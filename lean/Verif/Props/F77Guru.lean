import Verif.Props.F77
import Verif.Props.ApiSplit
import Verif.Props.RegisteredR2c

/-!
# C61, the guru interface from Fortran: real-to-complex, complex-to-real and split arrays

Nothing is reversed: dimension `i` of the transform has extent `n(i)` and strides `is(i)`, `os(i)`, and it is the last one whose complex extent is halved.
-/

namespace FFTW.F77
open Tensor Spec DftS Planner RowMajor Api RdftS
open MapFlags (U32)

/-- the batch a guru r2c call describes: the last dimension has `n/2+1` elements in the complex array, which is the output; a transform of rank 0 is one of size 1 -/
def guruFR (n is os hn his hos : List Int) : RBatch where
  n := n.dropLast.map (·.toNat)
  m := (n.getLast?.getD 1).toNat
  v := hn.map (·.toNat)
  real b j i := dot his b + (dot is.dropLast j + is.getLast?.getD 0 * i)
  cplx b k q := dot hos b + (dot os.dropLast k + os.getLast?.getD 0 * q)

/-- the batch a guru c2r call describes: the complex array is the input -/
def guruFC (n is os hn his hos : List Int) : RBatch where
  n := n.dropLast.map (·.toNat)
  m := (n.getLast?.getD 1).toNat
  v := hn.map (·.toNat)
  real b j i := dot hos b + (dot os.dropLast j + os.getLast?.getD 0 * i)
  cplx b k q := dot his b + (dot is.dropLast k + is.getLast?.getD 0 * q)

theorem ofIo_maps (l : List IODim) : (l.map ofIo).map (·.n) = (l.map fun d => d.n).map (·.toNat) ∧ (l.map ofIo).map (·.is) = l.map (fun d => d.is) ∧
    (l.map ofIo).map (·.os) = l.map fun d => d.os := by
  simp [ofIo]

theorem lastOf_maps (l : List Dim) : (lastOf l).n = (l.map (·.n)).getLast?.getD 1 ∧ (lastOf l).is = (l.map (·.is)).getLast?.getD 0 ∧ (lastOf l).os = (l.map (·.os)).getLast?.getD 0 := by
  simp only [lastOf, List.getLast?_map]
  cases l.getLast? <;> simp

variable [CLib]

theorem guruFR_eq {n is os hn his hos : List Int} (r : GuruRanks n is os hn his hos) : guruRB (makeDims n is os) (makeDims hn his hos) = guruFR n is os hn his hos := by
  obtain ⟨e1, e2, e3⟩ := makeDims_n r.is r.os
  obtain ⟨f1, f2, f3⟩ := makeDims_n r.his r.hos
  have g : ((n.map (·.toNat)).getLast?.getD 1) = (n.getLast?.getD 1).toNat := by rw [List.getLast?_map]; cases n.getLast? <;> rfl
  simp only [guruRB, guruR2c, lastOf_maps, List.map_dropLast, ofIo_maps, e1, e2, e3, f1, f2, f3, guruFR, g]

theorem guruFC_eq {n is os hn his hos : List Int} (r : GuruRanks n is os hn his hos) : guruCB (makeDims n is os) (makeDims hn his hos) = guruFC n is os hn his hos := by
  obtain ⟨e1, e2, e3⟩ := makeDims_n r.is r.os
  obtain ⟨f1, f2, f3⟩ := makeDims_n r.his r.hos
  have g : ((n.map (·.toNat)).getLast?.getD 1) = (n.getLast?.getD 1).toNat := by rw [List.getLast?_map]; cases n.getLast? <;> rfl
  simp only [guruCB, guruC2r, lastOf_maps, List.map_dropLast, ofIo_maps, e1, e2, e3, f1, f2, f3, guruFC, g]

theorem makeDims_nonneg {n is os hn his hos : List Int} (hn0 : ∀ x, x ∈ is ∨ x ∈ os ∨ x ∈ his ∨ x ∈ hos → 0 ≤ x) (d : IODim) (h : d ∈ makeDims n is os ∨ d ∈ makeDims hn his hos) : 0 ≤ d.is ∧ 0 ≤ d.os := by
  rcases h with hd | hd
  · exact ⟨hn0 _ (Or.inl (makeDims_mem hd).1), hn0 _ (Or.inr (Or.inl (makeDims_mem hd).2))⟩
  · exact ⟨hn0 _ (Or.inr (Or.inr (Or.inl (makeDims_mem hd).1))), hn0 _ (Or.inr (Or.inr (Or.inr (makeDims_mem hd).2)))⟩

variable {env : Env} (hs : ∀ d ∈ env.slvdescs, d.slv.Sound) {nt : ℕ} {tl : ℝ} {flags : U32} {n is os hn his hos : List Int} {st0 st0' : PSt} {ap : ApiPlan}
  (r : GuruRanks n is os hn his hos) (hn0 : ∀ x, x ∈ is ∨ x ∈ os ∨ x ∈ his ∨ x ∈ hos → 0 ≤ x)
include hs r hn0

/-- **C61**, guru interface, r2c -/
theorem C61_guru_r2c {inp out : Ptr} (h : planGuruR2c env nt tl flags n is os hn his hos inp out st0 = .ok (some ap, st0'))
    (ok : R2cOk (guruFR n is os hn his hos) flags inp (.interleaved out))
    {inp' out' : Ptr} {st : State} (hf : Fits2 (guruFR n is os hn his hos) inp (.interleaved out) inp' (.interleaved out') st) :
    DoesR2c (guruFR n is os hn his hos) (R2cDestroys flags inp (.interleaved out)) inp' (.interleaved out') st (executeDftR2c ap inp' out' st) ∧
      execute ap = executeDftR2c ap inp out := by
  rw [← guruFR_eq r] at *
  exact C54_guru_r2c env hs (fun _ _ => int32_eq) h (makeDims_nonneg hn0) ok hf

/-- **C61**, guru interface, c2r -/
theorem C61_guru_c2r {inp out : Ptr} (h : planGuruC2r env nt tl flags n is os hn his hos inp out st0 = .ok (some ap, st0'))
    (ok : C2rOk (guruFC n is os hn his hos) flags out (.interleaved inp))
    {inp' out' : Ptr} {st : State} (hf : Fits2 (guruFC n is os hn his hos) out (.interleaved inp) out' (.interleaved inp') st) :
    DoesC2r (guruFC n is os hn his hos) (C2rDestroys flags out (.interleaved inp)) out' (.interleaved inp') st (executeDftC2r ap inp' out' st) ∧
      execute ap = executeDftC2r ap inp out := by
  rw [← guruFC_eq r] at *
  exact C54_guru_c2r env hs (fun _ _ => int32_eq) h (makeDims_nonneg hn0) ok hf

/-- **C61**, guru interface, r2c with split complex output -/
theorem C61_guru_split_r2c {inp ro io : Ptr} (h : planGuruSplitR2c env nt tl flags n is os hn his hos inp ro io st0 = .ok (some ap, st0'))
    (hb : io.blk = ro.blk) (ok : R2cOk (guruFR n is os hn his hos) flags inp (.split ro io))
    {inp' ro' io' : Ptr} {st : State} (hd : io' = ro' + (io - ro)) (hf : Fits2 (guruFR n is os hn his hos) inp (.split ro io) inp' (.split ro' io') st) :
    DoesR2c (guruFR n is os hn his hos) (R2cDestroys flags inp (.split ro io)) inp' (.split ro' io') st (executeSplitDftR2c ap inp' ro' io' st) ∧
      execute ap = executeSplitDftR2c ap inp ro io := by
  rw [← guruFR_eq r] at *
  exact C54_guru_split_r2c env hs (fun _ _ => int32_eq) h (makeDims_nonneg hn0) hb ok hd hf

/-- **C61**, guru interface, c2r with split complex input -/
theorem C61_guru_split_c2r {ri ii out : Ptr} (h : planGuruSplitC2r env nt tl flags n is os hn his hos ri ii out st0 = .ok (some ap, st0'))
    (hb : ii.blk = ri.blk) (ok : C2rOk (guruFC n is os hn his hos) flags out (.split ri ii))
    {ri' ii' out' : Ptr} {st : State} (hd : ii' = ri' + (ii - ri)) (hf : Fits2 (guruFC n is os hn his hos) out (.split ri ii) out' (.split ri' ii') st) :
    DoesC2r (guruFC n is os hn his hos) (C2rDestroys flags out (.split ri ii)) out' (.split ri' ii') st (executeSplitDftC2r ap ri' ii' out' st) ∧
      execute ap = executeSplitDftC2r ap ri ii out := by
  rw [← guruFC_eq r] at *
  exact C54_guru_split_c2r env hs (fun _ _ => int32_eq) h (makeDims_nonneg hn0) hb ok hd hf

open Classical in
/-- **C61**, guru interface, complex DFT of split arrays -/
theorem C61_guru_split_dft {ri ii ro io : Ptr} (h : planGuruSplitDft env nt tl flags n is os hn his hos ri ii ro io st0 = .ok (some ap, st0'))
    (ho : (guruF n is os hn his hos).OutInj) (hi : ¬ Preserves flags → (guruF n is os hn his hos).InInj) (hb : ii.blk = ri.blk) (hb' : io.blk = ro.blk)
    (ho2 : PartsApart ro io (guruF n is os hn his hos).Out) (hi2 : ¬ Preserves flags → PartsApart ri ii (guruF n is os hn his hos).Inp)
    (hsep : SeparateS (guruF n is os hn his hos) ri ii ro io)
    {ri' ii' ro' io' : Ptr} {st : State} (hf : FitsS (guruF n is os hn his hos) ri ii ro io ri' ii' ro' io' st) :
    DoesDftS (-1) (guruF n is os hn his hos) (¬ Preserves flags) ri' ii' ro' io' st (executeSplitDft ap ri' ii' ro' io' st) ∧
      execute ap = executeSplitDft ap ri ii ro io := by
  rw [← guruF_eq r] at *
  exact C05_guru_split_dft env hs (fun _ _ => int32_eq) h (makeDims_nonneg hn0) ho hi hb hb' ho2 hi2 hsep hf

omit [CLib] hs r hn0

/-- two transforms of 4 × 6 real numbers in the order of Fortran (the guru interface halves the dimension listed last, so list the first one last): element (3, 2) of the second array, and of its
transform of 4 × 4 complex numbers -/
example : (guruFR [4, 6] [6, 1] [4, 1] [2] [24] [16]).m = 6 ∧ (guruFR [4, 6] [6, 1] [4, 1] [2] [24] [16]).real [1] [2] 3 = 24 + 2 * 6 + 3 ∧
    (guruFR [4, 6] [6, 1] [4, 1] [2] [24] [16]).cplx [1] [2] 3 = 16 + 2 * 4 + 3 := by decide

example : GuruRanks [4, 6] [6, 1] [4, 1] [2] [24] [16] := ⟨rfl, rfl, rfl, rfl⟩

end FFTW.F77

namespace FFTW.Registered
open Tensor Spec DftS Planner Api RowMajor RdftS
open MapFlags (U32 FFTW_ESTIMATE)

attribute [local instance] sortLib

/-- the call of Props/RegisteredR2c.lean, made from Fortran: it plans three in-place transforms of size 9, and they are done -/
example : ∃ ap st', F77.planGuruR2c (oneE2 ex2s) 1 (-1) FFTW_ESTIMATE [9] [1] [1] [3] [10] [5] ⟨0, 0⟩ ⟨0, 0⟩ exS = .ok (some ap, st') ∧
    ∀ st : State, 1 ≤ st.next → DoesR2c (F77.guruFR [9] [1] [1] [3] [10] [5]) True ⟨0, 0⟩ (.interleaved ⟨0, 0⟩) st (F77.execute ap st) := by
  obtain ⟨ap, st', h, h'⟩ := ex2_runs
  refine ⟨ap, st', ?_, fun st hst => ?_⟩
  · rw [← h]
    unfold F77.planGuruR2c planGuruR2c
    rw [ex2_problem, show guruR2cProblem int32 (F77.makeDims [9] [1] [1]) (F77.makeDims [3] [10] [5]) ⟨0, 0⟩ ⟨0, 0⟩ = some (some (.rdft2 ex2P)) by with_unfolding_all rfl]
  · have := h' st hst
    rw [← F77.guruFR_eq (n := [9]) (is := [1]) (os := [1]) (hn := [3]) (his := [10]) (hos := [5]) ⟨rfl, rfl, rfl, rfl⟩]
    exact this

end FFTW.Registered
