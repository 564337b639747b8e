import Verif.Proofs.Half
import Verif.Proofs.DftSolvers
import Verif.Model.Rdft2

namespace FFTW
open Tensor Spec

/-- the rows of a problem, by kind -/
noncomputable def half2 (k : R2Kind) (d : Dim) (ρ δ : ℤ) : Half :=
  match k with
  | .R2HC => r2cHalf d.n ρ d.is δ d.os
  | .HC2R => c2rHalf d.n ρ d.os δ d.is

/-- a plan run on an input and an output -/
def run2 (k : R2Kind) (ρ δ : ℤ) (f : Ptr → Ptr → Ptr → Ptr → State → State) (I O : Ptr) : State → State :=
  match k with
  | .R2HC => f I (I + ρ) O (O + δ)
  | .HC2R => f O (O + ρ) I (I + δ)

theorem half_eq (p : Rdft2P) : p.half = half2 p.kind (lastDim p.sz) (p.r1 - p.r0) (p.ci - p.cr) := by
  unfold Rdft2P.half half2; cases p.kind <;> rfl
theorem run_eq (p : Rdft2P) : p.run = run2 p.kind (p.r1 - p.r0) (p.ci - p.cr) := by
  funext f I O; unfold Rdft2P.run run2; cases p.kind <;> rfl

/-- equal rows -/
structure _root_.FFTW.Spec.Half.Same (h h' : Half) : Prop where
  na : h.na = h'.na
  nb : h.nb = h'.nb
  A : ∀ i < h.na, h.A i = h'.A i
  B : ∀ t < h.nb, h.B t = h'.B t
  c : ∀ t < h.nb, ∀ i < h.na, h.c t i = h'.c t i
  P : ∀ t < h.nb, h.P t = h'.P t
  K : h.K = h'.K

theorem _root_.FFTW.Spec.Half.Same.hIns {h h' : Half} (s : h.Same h') (T : Tensor) : hIns h T = Spec.hIns h' T := by
  unfold Spec.hIns
  rw [← s.na, Multiset.map_congr rfl fun i hi => s.A i (Multiset.mem_range.1 hi)]
theorem _root_.FFTW.Spec.Half.Same.hOuts {h h' : Half} (s : h.Same h') (T : Tensor) : hOuts h T = Spec.hOuts h' T := by
  unfold Spec.hOuts
  rw [← s.nb, Multiset.map_congr rfl fun i hi => s.B i (Multiset.mem_range.1 hi)]
theorem _root_.FFTW.Spec.Half.Same.hAll {h h' : Half} (s : h.Same h') (T : Tensor) : hAll h T = Spec.hAll h' T := by
  unfold Spec.hAll
  rw [← s.nb, ← s.na, Multiset.map_congr rfl fun i hi => s.B i (Multiset.mem_range.1 hi),
    Multiset.map_congr rfl fun i hi => s.A i (Multiset.mem_range.1 hi)]

theorem _root_.FFTW.Spec.HOK.half_congr {h h' : Half} (s : h.Same h') {sz : List (Dim × Unit)} {vec : Tensor} {inpl nd : Bool}
    {f : Ptr → Ptr → State → State} (hf : HOK h' sz vec inpl nd f) : HOK h sz vec inpl nd f := by
  intro wf I O st hc
  obtain ⟨h1, h2⟩ := hf ⟨by rw [← s.hOuts]; exact wf.out, by rw [← s.hIns]; exact wf.inp, wf.eq, by rw [← s.hAll]; exact wf.all⟩ I O st
    ⟨hc.blkI, hc.blkO, hc.same, fun h a ha b hb => hc.disj h a (by rw [s.hIns]; exact ha) b (by rw [s.hOuts]; exact hb)⟩
  refine ⟨h1.mono ?_, ?_⟩
  · rintro q _ (h | ⟨h, h'⟩)
    · exact Or.inl (by rw [s.hOuts]; exact h)
    · exact Or.inr ⟨h, by rw [s.hIns]; exact h'⟩
  · intro dk hdk ab hab t ht
    rw [s.B t ht, s.P t ht, s.K, h2 dk hdk ab hab t (by rw [← s.nb]; exact ht), ← s.na]
    congr 1
    congr 1
    funext o
    refine Finset.sum_congr rfl fun i hi => ?_
    rw [s.A i (Finset.mem_range.1 hi), s.c t ht i (Finset.mem_range.1 hi)]

theorem half2_one {k : R2Kind} {d d' : Dim} (hd : d.n = 1) (hd' : d'.n = 1) (ρ δ : ℤ) : (half2 k d ρ δ).Same (half2 k d' ρ δ) := by
  have z2 : ∀ a s s' : ℤ, ∀ t < 2, zig a s t = zig a s' t := by
    intro a s s' t ht; simp only [zig, Nat.div_eq_of_lt ht]; simp
  have z1 : ∀ a s s' : ℤ, ∀ t < 1, zig a s t = zig a s' t := fun a s s' t ht => z2 a s s' t (by omega)
  cases k with
  | R2HC =>
    simp only [half2, hd, hd']
    exact ⟨rfl, rfl, z1 _ _ _, z2 _ _ _, fun _ _ _ _ => rfl, fun _ _ => rfl, rfl⟩
  | HC2R =>
    simp only [half2, hd, hd']
    exact ⟨rfl, rfl, z2 _ _ _, z1 _ _ _, fun _ _ _ _ => rfl, fun _ _ => rfl, rfl⟩

theorem _root_.FFTW.Spec.Half.Same.refl (h : Half) : h.Same h := ⟨rfl, rfl, fun _ _ => rfl, fun _ _ => rfl, fun _ _ _ _ => rfl, fun _ _ => rfl, rfl⟩

variable [CLib]

theorem rdft2Sz_dropLast (sz : List Dim) : (rdft2Sz sz).dropLast = compress sz.dropLast := by
  have one : ∀ d : Dim, (compress [d]).dropLast = [] := by
    intro d
    simp only [compress, reallyCompress, List.filter_cons, List.filter_nil]
    split <;> simp [canonicalize]
  unfold rdft2Sz
  split
  · dsimp only
    split
    · rw [List.dropLast_append_cons]; simp
    · rename_i h; rw [one]; exact (List.length_eq_zero_iff.1 (by omega)).symm
  · rename_i h
    match sz, h with
    | [], _ => simp [compress, reallyCompress, canonicalize]
    | [d], _ => rw [one]; simp [compress, reallyCompress, canonicalize]
    | _ :: _ :: _, h => simp at h

theorem rdft2Sz_last (sz : List Dim) : lastDim (rdft2Sz sz) = lastDim sz ∨ ((lastDim (rdft2Sz sz)) = ⟨1, 0, 0⟩ ∧ (lastDim sz).n = 1) := by
  have one : ∀ d : Dim, lastDim (compress [d]) = d ∨ (lastDim (compress [d]) = ⟨1, 0, 0⟩ ∧ d.n = 1) := by
    intro d
    simp only [compress, reallyCompress, List.filter_cons, List.filter_nil]
    split
    · left; simp [canonicalize, lastDim]
    · rename_i h; right; simp [canonicalize, lastDim]; simpa using h
  unfold rdft2Sz
  split
  · dsimp only
    split
    · left; simp [lastDim]
    · exact one _
  · rename_i h
    match sz, h with
    | [], _ => left; simp [compress, reallyCompress, canonicalize]
    | [d], _ => exact one d
    | _ :: _ :: _, h => simp at h

theorem rdft2Sz_same (k : R2Kind) (sz : List Dim) (ρ δ : ℤ) : (half2 k (lastDim sz) ρ δ).Same (half2 k (lastDim (rdft2Sz sz)) ρ δ) := by
  rcases rdft2Sz_last sz with h | ⟨h, h'⟩
  · rw [h]; exact Half.Same.refl _
  · exact half2_one h' (by rw [h]) _ _

omit [CLib] in
/-- a plan for an empty problem does nothing, whatever the rows -/
theorem _root_.FFTW.Spec.HOK.of_empty {h h' : Half} {sz sz' : List (Dim × Unit)} {vec : Tensor} {nd : Bool}
    {f : Ptr → Ptr → State → State} (hv : pairs vec = 0) (hf : HOK h' sz' none false nd f) (b : Bool) : HOK h sz vec b nd f := by
  intro wf I O st hc
  have hp : pairs (append (some (sz'.map Prod.fst)) none) = 0 := rfl
  have hi : hIns h' (append (some (sz'.map Prod.fst)) none) = 0 := by rw [hIns, ins_eq, hp]; simp [spread]
  have ho : hOuts h' (append (some (sz'.map Prod.fst)) none) = 0 := by rw [hOuts, outs_eq, hp]; simp [spread]
  obtain ⟨h1, _⟩ := hf ⟨by rw [ho]; simp, fun _ => by rw [hi]; simp, by simp, by simp⟩ I O st
    ⟨hc.blkI, hc.blkO, by simp, fun _ a ha => by rw [hi] at ha; simp at ha⟩
  refine ⟨h1.mono ?_, ?_⟩
  · rintro q _ (⟨b, hb, _⟩ | ⟨_, b, hb, _⟩)
    · rw [ho] at hb; simp at hb
    · rw [hi] at hb; simp at hb
  · intro dk _ ab hab; rw [hv] at hab; simp at hab

omit [CLib] in
theorem _root_.FFTW.Spec.HOK.toInpl {h : Half} {sz : List (Dim × Unit)} {vec : Tensor} {b nd : Bool}
    {f : Ptr → Ptr → State → State} (hf : HOK h sz vec (b && vec.isSome) nd f) : HOK h sz vec b nd f := by
  cases vec with
  | some l => simpa using hf
  | none => rw [Option.isSome_none, Bool.and_false] at hf; exact hf.of_empty rfl b

theorem sound_mkproblemRdft2_empty {nd : Bool} {sz : List Dim} {sz' : List (Dim × Unit)} {vec vec' : Tensor} {r0 r1 cr ci : Ptr} {k : R2Kind} {c : Plan}
    (hv : pairs vec = 0) (hv' : pairs vec' = 0)
    (h : Sound nd (mkproblemRdft2 sz vec r0 r1 cr ci k) c) (hh : Half) (b : Bool) :
    HOK hh sz' vec' b nd (run2 k (r1 - r0) (ci - cr) c.rdft2Apply) := by
  unfold mkproblemRdft2 at h
  split at h
  · exact absurd h (by cases c <;> exact id)
  · cases c with
      | dft f => exact absurd h id
      | rdft f => exact absurd h id
      | rdft2 f =>
        simp only [Sound, compressContiguous_empty hv, Option.isSome_none, Bool.and_false] at h
        rw [run_eq] at h
        exact h.of_empty hv' b

/-- what a plan for `X(mkproblem_rdft2)(sz, vecsz, ...)` does, in terms of the tensors before canonicalisation -/
theorem sound_mkproblemRdft2 {nd : Bool} {sz : List Dim} {vec : Tensor} {r0 r1 cr ci : Ptr} {k : R2Kind} {c : Plan}
    (h : Sound nd (mkproblemRdft2 sz vec r0 r1 cr ci k) c) :
    HOK (half2 k (lastDim sz) (r1 - r0) (ci - cr)) (tag sz.dropLast) vec (decide (r0 = cr)) nd (run2 k (r1 - r0) (ci - cr) c.rdft2Apply) := by
  unfold mkproblemRdft2 at h
  split at h
  · exact absurd h (by cases c <;> exact id)
  · rename_i hc
    cases c with
    | dft f => exact absurd h id
    | rdft f => exact absurd h id
    | rdft2 f =>
      simp only [Sound] at h
      rw [run_eq, half_eq] at h
      refine HOK.half_congr (rdft2Sz_same k sz _ _) ?_
      rw [rdft2Sz_dropLast] at h
      refine h.toInpl.transfer (pairs_compressContiguous _).symm (by rw [map_fst_tag, map_fst_tag, pairs_compress]) ?_
      intro dk hdk
      dsimp only
      have hK : ∀ d : Dim × Unit, d.1.n = 1 → (half2 k (lastDim (rdft2Sz sz)) (r1 - r0) (ci - cr)).K d.2 1 0 0 = 1 := by
        intro d hd; cases k <;> simp [half2, r2cHalf, c2rHalf, dftK, idftK]
      have hf := hdk.filter (K := (half2 k (lastDim (rdft2Sz sz)) (r1 - r0) (ci - cr)).K) (fun e => decide (e.1.n ≠ 1)) (by
        rintro ⟨d, _⟩ hd
        simp only [decide_eq_false_iff_not, not_not] at hd
        exact ⟨hd, hK ⟨d, ()⟩ hd⟩)
      have hperm : ((tag sz.dropLast).filter fun e => decide (e.1.n ≠ 1)).Perm (tag (compress sz.dropLast)) := by
        have : (tag sz.dropLast).filter (fun e => decide (e.1.n ≠ 1)) = tag (reallyCompress sz.dropLast) := by
          simp only [tag, reallyCompress, List.filter_map]; rfl
        rw [this]
        exact (canonicalize_perm _).symm.map _
      obtain ⟨dk', p, i⟩ := hf.1.perm hperm
      exact ⟨dk', i, by rw [← gOut_perm p, hf.2.1], fun x => by rw [← gSum_perm p, hf.2.2]⟩

/-- where the input and the output of a problem are -/
def in2 (k : R2Kind) (r cr : Ptr) : Ptr := match k with | .R2HC => r | .HC2R => cr
def out2 (k : R2Kind) (r cr : Ptr) : Ptr := match k with | .R2HC => cr | .HC2R => r

omit [CLib] in
theorem I_eq (p : Rdft2P) : p.I = in2 p.kind p.r0 p.cr := by unfold Rdft2P.I in2; cases p.kind <;> rfl
omit [CLib] in
theorem O_eq (p : Rdft2P) : p.O = out2 p.kind p.r0 p.cr := by unfold Rdft2P.O out2; cases p.kind <;> rfl

omit [CLib] in
theorem _root_.FFTW.Spec.HApart.of_pairs {h : Half} {T T' : Tensor} {I O : Ptr} (ha : HApart h T I O) (hp : pairs T' = pairs T) : HApart h T' I O := by
  intro a h1 b h2
  refine ha a ?_ b ?_
  · rw [mem_hIns] at h1 ⊢; rwa [← hp]
  · rw [mem_hOuts] at h2 ⊢; rwa [← hp]
omit [CLib] in
theorem _root_.FFTW.Spec.HApart.same {h h' : Half} (s : h.Same h') {T : Tensor} {I O : Ptr} (ha : HApart h T I O) : HApart h' T I O := by
  intro a h1 b h2
  exact ha a (by rw [s.hIns]; exact h1) b (by rw [s.hOuts]; exact h2)

omit [CLib] in
theorem lastDim_mem {sz : List Dim} : lastDim sz ∈ sz ∨ lastDim sz = ⟨1, 0, 0⟩ := by
  unfold lastDim
  cases h : sz.getLast? with
  | none => right; rfl
  | some d => left; exact List.mem_of_getLast? h

omit [CLib] in
theorem lastDim_pos {sz : List Dim} (h0 : Pos sz) : 0 < (lastDim sz).n := by
  rcases lastDim_mem (sz := sz) with h | h
  · exact h0 _ h
  · rw [h]; exact Nat.one_pos
omit [CLib] in
theorem lastDim_nonneg {sz : List Dim} (h0 : NonNeg sz) : 0 ≤ (lastDim sz).is ∧ 0 ≤ (lastDim sz).os := by
  rcases lastDim_mem (sz := sz) with h | h
  · exact h0 _ h
  · rw [h]; simp

theorem kosher_mkproblemRdft2' {sz : List Dim} {vec : Tensor} {r0 r1 cr ci : Ptr} {k : R2Kind} (hb : r1.blk = r0.blk ∧ ci.blk = cr.blk) (h1 : NonNeg sz) (h2 : NonNegV vec) (h0 : Pos sz)
    (he : r0 = cr → (∀ d ∈ sz.dropLast, d.is = d.os) ∧ (compressContiguous vec = none ∨ ∀ l, vec = some l → ∀ d ∈ l, d.is = d.os))
    (ha : r0 ≠ cr → HApart (half2 k (lastDim sz) (r1 - r0) (ci - cr)) (append (some sz.dropLast) vec) (in2 k r0 cr) (out2 k r0 cr)) :
    Kosher (mkproblemRdft2 sz vec r0 r1 cr ci k) := by
  unfold mkproblemRdft2
  split
  · trivial
  · simp only [Kosher, Kosher2, I_eq, O_eq, half_eq, rdft2Sz_dropLast]
    refine ⟨hb, ?_, ?_, ?_, ?_, ?_⟩
    · intro heq
      obtain ⟨e1, e2⟩ := he heq
      refine ⟨fun d hd => e1 d (compress_sub hd), fun l hl d hd => ?_⟩
      rcases e2 with e2 | e2
      · rw [e2] at hl; simp at hl
      obtain ⟨l0, hl0, e, hem, e3, e4⟩ := compressContiguous_mem hl hd
      rw [e3, e4]; exact e2 l0 hl0 e hem
    · intro hne
      refine ((ha hne).same (rdft2Sz_same k sz _ _)).of_pairs ?_
      rw [pairs_append_compress]
    · intro d hd
      have hm := List.mem_of_mem_dropLast (compress_sub hd)
      have := h1 d hm
      exact ⟨this.1, this.2, compress_big (h0.sub fun d hd => List.mem_of_mem_dropLast hd) hd⟩
    · rcases rdft2Sz_last sz with h | ⟨h, h'⟩
      · rw [h]; exact ⟨(lastDim_nonneg h1).1, (lastDim_nonneg h1).2, lastDim_pos h0⟩
      · rw [h]; simp
    · intro l hl d hd
      obtain ⟨l0, hl0, e, he, e1, e2⟩ := compressContiguous_mem hl hd
      rw [e1, e2]; exact ⟨(h2 l0 hl0 e he).1, (h2 l0 hl0 e he).2, compressContiguous_big hl d hd⟩

theorem kosher_mkproblemRdft2 {sz : List Dim} {vec : Tensor} {r0 r1 cr ci : Ptr} {k : R2Kind} (hb : r1.blk = r0.blk ∧ ci.blk = cr.blk) (h1 : NonNeg sz) (h2 : NonNegV vec) (h0 : Pos sz)
    (he : r0 = cr → (∀ d ∈ sz.dropLast, d.is = d.os) ∧ ∀ l, vec = some l → ∀ d ∈ l, d.is = d.os)
    (ha : r0 ≠ cr → HApart (half2 k (lastDim sz) (r1 - r0) (ci - cr)) (append (some sz.dropLast) vec) (in2 k r0 cr) (out2 k r0 cr)) :
    Kosher (mkproblemRdft2 sz vec r0 r1 cr ci k) :=
  kosher_mkproblemRdft2' hb h1 h2 h0 (fun e => ⟨(he e).1, Or.inr (he e).2⟩) ha

omit [CLib] in
theorem soundRdft2 {nd : Bool} {p : Rdft2P} {f : Ptr → Ptr → Ptr → Ptr → State → State} (hv : p.vecsz.isSome = true)
    (h : HOK (half2 p.kind (lastDim p.sz) (p.r1 - p.r0) (p.ci - p.cr)) (tag p.sz.dropLast) p.vecsz (decide (p.r0 = p.cr)) nd
      (run2 p.kind (p.r1 - p.r0) (p.ci - p.cr) f)) :
    Sound nd (.rdft2 p) (.rdft2 f) := by
  simp only [Sound]; rw [hv, Bool.and_true, half_eq, run_eq]; exact h

end FFTW
