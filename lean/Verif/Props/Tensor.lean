import Verif.Proofs.Problem

/-!
# C07, C08: canonicalisation of dimensions; the in-place test
-/

namespace FFTW.Tensor
open Spec

/-- a C library whose `qsort` is an insertion sort: the class is inhabited, so the theorems below are not vacuous -/
def sortLib : CLib where
  qsort cmp l := l.insertionSort fun a b => cmp a b ≤ 0
  perm cmp l := List.perm_insertionSort _ _
  sorted cmp l htot htr := by
    haveI : Std.Total fun a b => cmp a b ≤ 0 := ⟨htot⟩
    haveI : IsTrans Dim fun a b => cmp a b ≤ 0 := ⟨htr⟩
    exact List.pairwise_insertionSort (fun a b => cmp a b ≤ 0) l

section
variable [CLib]

/-- C07, transform dimensions (`X(tensor_compress)`): the result has no trivial dimension, and for every output index vector of the
original dimensions there is one of the compressed dimensions with the same output location and the same DFT of every input -/
theorem C07_compress_same_transform (sz : List Dim) :
    (∀ d ∈ compress sz, d.n ≠ 1) ∧
    ∀ dk, IsIdx sz dk → ∃ dk', IsIdx (compress sz) dk' ∧ outOff dk' = outOff dk ∧ ∀ x, dftSum dk' x = dftSum dk x := by
  constructor
  · intro d hd
    have := (canonicalize_perm _).mem_iff.1 hd
    simpa using List.of_mem_filter this
  · intro dk hdk
    obtain ⟨h1, h2, h3⟩ := IsIdx.filter hdk
    obtain ⟨dk', p, i⟩ := IsIdx.perm (canonicalize_perm (reallyCompress sz)).symm h1
    exact ⟨dk', i, by rw [← outOff_perm p, h2], fun x => by rw [← dftSum_perm p, h3]⟩

/-- C07: compression neither loses nor invents locations (with multiplicity) -/
theorem C07_compress_same_locations (sz : List Dim) : pairs (some (compress sz)) = pairs (some sz) := pairs_compress sz

/-- C07, batch dimensions (`X(tensor_compress_contiguous)`): exactly the same (input offset, output offset) pairs, with multiplicity,
for every tensor, including those of size 0 or rank -infinity; in particular the same number of transforms -/
theorem C07_compressContiguous_same_batch (t : Tensor) : pairs (compressContiguous t) = pairs t := pairs_compressContiguous t

/-- C07: the order of the dimensions given by the caller does not matter for the set of transforms described -/
theorem C07_batch_order_irrelevant {a b : List Dim} (h : a.Perm b) : pairs (compressContiguous (some a)) = pairs (compressContiguous (some b)) := by
  rw [pairs_compressContiguous, pairs_compressContiguous, pairs_perm h]

/-- C07: the number of transforms is unchanged -/
theorem C07_same_size (t : Tensor) : tensorSz (compressContiguous t) = tensorSz t := by
  have key : ∀ t, tensorSz t = Multiset.card (pairs t) := by
    intro t
    cases t with
    | none => rfl
    | some l => rw [pairs, card_offs]; simp [tensorSz, List.map_map, Function.comp_def]
  rw [key, key, pairs_compressContiguous]

/-- C08: the test accepts only tensors whose input locations are, with multiplicity, their output locations -/
theorem C08_inplaceLocations (sz vec : Tensor) (h : inplaceLocations sz vec = true) : ins (append sz vec) = outs (append sz vec) :=
  inplaceLocations_sound h

/-- C08: an in-place complex problem (any of the two pointer pairs equal) is turned into the unsolvable problem unless both pairs are
equal and the input locations are the output locations -/
theorem C08_dft_unsolvable (sz : List Dim) (vec : Tensor) (ri ii ro io : Ptr) (h : ri = ro ∨ ii = io)
    (hbad : ri ≠ ro ∨ ii ≠ io ∨ ins (append (some sz) vec) ≠ outs (append (some sz) vec)) :
    mkproblemDft sz vec ri ii ro io = .unsolvable := by
  unfold mkproblemDft
  rw [if_pos]
  refine ⟨h, ?_⟩
  rcases hbad with h | h | h
  · exact Or.inl h
  · exact Or.inr (Or.inl h)
  · refine Or.inr (Or.inr ?_)
    by_contra hc
    exact h (inplaceLocations_sound (by simpa using hc))

/-- C08, real-to-real transforms -/
theorem C08_rdft_unsolvable (sz : List (Dim × RKind)) (vec : Tensor) (I O : Ptr) (h : I = O)
    (hbad : ins (append (some (sz.map Prod.fst)) vec) ≠ outs (append (some (sz.map Prod.fst)) vec)) :
    mkproblemRdft sz vec I O = .unsolvable := by
  unfold mkproblemRdft
  rw [if_pos]
  refine ⟨h, ?_⟩
  by_contra hc
  exact hbad (inplaceLocations_sound (by simpa using hc))

/-- C08: out-of-place problems and in-place problems with equal strides are never refused -/
theorem C08_accepts (sz vec : List Dim) (ri ii ro io : Ptr)
    (h : (ri ≠ ro ∧ ii ≠ io) ∨ (ri = ro ∧ ii = io ∧ ∀ d ∈ sz ++ vec, d.is = d.os)) :
    ∃ p, mkproblemDft sz (some vec) ri ii ro io = .dft p := by
  unfold mkproblemDft
  rw [if_neg]
  · exact ⟨_, rfl⟩
  · rintro ⟨h1, h2⟩
    rcases h with ⟨ha, hb⟩ | ⟨ha, hb, hs⟩
    · rcases h1 with h1 | h1
      · exact ha h1
      · exact hb h1
    · rcases h2 with h2 | h2 | h2
      · exact h2 ha
      · exact h2 hb
      · simp only [inplaceLocations, tensorEqual, append, copyInplace, Option.map_some] at h2
        refine of_decide_eq_false h2 ?_
        congr 2
        exact List.map_congr_left fun d hd => by
          have := hs d hd
          cases d; simp only [Dim.inplace] at *; simp [this]

end

/-! ### non-vacuity -/

section
attribute [local instance] sortLib

/-- a 2-d transform with a trivial dimension, a 3-d batch that merges to one dimension -/
example : compress [⟨3, 4, 5⟩, ⟨1, 7, 7⟩, ⟨6, 40, 20⟩] = [⟨6, 40, 20⟩, ⟨3, 4, 5⟩] := by
  decide +kernel
example : compressContiguous (some [⟨2, 1, 3⟩, ⟨5, 8, 24⟩, ⟨4, 2, 6⟩]) = some [⟨40, 1, 3⟩] := by
  decide +kernel
/-- the in-place transpose of a 2×3 matrix passes the test; a transpose with too small a leading dimension does not -/
example : inplaceLocations (some []) (some [⟨2, 3, 1⟩, ⟨3, 1, 2⟩]) = true := by decide +kernel
example : mkproblemDft [⟨4, 2, 2⟩] (some [⟨3, 8, 10⟩]) ⟨0, 0⟩ ⟨0, 1⟩ ⟨0, 0⟩ ⟨0, 1⟩ = .unsolvable :=
  C08_dft_unsolvable _ _ _ _ _ _ (Or.inl rfl) (Or.inr (Or.inr (by decide +kernel)))
example : ∃ dk, IsIdx [⟨3, 4, 5⟩, ⟨1, 7, 7⟩] dk ∧ outOff dk = 10 :=
  ⟨[(⟨3, 4, 5⟩, 2), (⟨1, 7, 7⟩, 0)], ⟨rfl, by decide⟩, rfl⟩
end

end FFTW.Tensor
