import Verif.Proofs.F77
import Verif.Props.RegisteredR2r

/-!
# C61: the Fortran 77 interface

A Fortran program that declares its arrays `A(n₁, …, n_d)` and passes `n₁, …, n_d` in that order gets the transform of its array, with each kind of real transform along the dimension it was given for; in real-to-complex
transforms the first dimension is the halved one.  The guru interface reverses nothing, with the documented exception of the kinds.
-/

namespace FFTW.F77
open Tensor Spec DftS Planner RowMajor Api RdftS
open MapFlags (U32 FFTW_PRESERVE_INPUT)

/-- what a call of the basic interface transforms: one Fortran array `A(n₁, …, n_d)` -/
abbrev basicF (n : List Int) : Batch := fBatch (n.map (·.toNat)) 1 n 1 1 n 1 1

/-- the batch a call of the advanced interface describes -/
abbrev manyF (a : FMany) : Batch := fBatch (a.n.map (·.toNat)) a.howmany.toNat a.inembed a.istride a.idist a.onembed a.ostride a.odist

/-- the batch a call of the guru interface describes: the arrays `n`, `is`, `os` of the transform dimensions and of the loops, in the same order -/
abbrev guruF (n is os hn his hos : List Int) : Batch where
  n := n.map (·.toNat)
  v := hn.map (·.toNat)
  inp b j := dot his b + dot is j
  out b k := dot hos b + dot os k

/-- embeddings have the right rank -/
def FMany.Ranks (a : FMany) : Prop := a.inembed.length = a.n.length ∧ a.onembed.length = a.n.length

/-- embeddings have the right rank; nothing is negative -/
structure FMany.Ok (a : FMany) : Prop where
  ranks : a.Ranks
  embeds : ∀ x, x ∈ a.inembed ∨ x ∈ a.onembed → 0 ≤ x
  strides : 0 ≤ a.istride ∧ 0 ≤ a.idist ∧ 0 ≤ a.ostride ∧ 0 ≤ a.odist

variable [CLib]

theorem ok_toC {a : FMany} (h : a.Ok) (s : Int) : ManyOk (a.toC s) where
  inembed e he := by
    obtain rfl := Option.some.inj he
    simp only [FMany.toC, reverseN_eq, List.length_reverse, List.mem_reverse]
    exact ⟨h.ranks.1, fun x hx => h.embeds x (Or.inl hx)⟩
  onembed e he := by
    obtain rfl := Option.some.inj he
    simp only [FMany.toC, reverseN_eq, List.length_reverse, List.mem_reverse]
    exact ⟨h.ranks.2, fun x hx => h.embeds x (Or.inr hx)⟩
  strides := h.strides

theorem rev_many {a : FMany} (h : a.Ranks) (s : Int) : Rev (manyB (a.toC s)) (manyF a) where
  n := by simp [FMany.toC, manyBatch, fBatch, reverseN_eq]
  v := rfl
  inp b j hb hj := by
    have hj' : j.length = a.inembed.length := by rw [h.1, box_length hj]; simp [fBatch]
    simp only [FMany.toC, manyBatch, fBatch, reverseN_eq, Option.getD_some, rowMajor_reverse hj']
  out b j hb hj := by
    have hj' : j.length = a.onembed.length := by rw [h.2, box_length hj]; simp [fBatch]
    simp only [FMany.toC, manyBatch, fBatch, reverseN_eq, Option.getD_some, rowMajor_reverse hj']

theorem rev_basic (n : List Int) : Rev (basicB (reverseN n)) (basicF n) := by
  have key : ∀ j, Box (n.map (·.toNat)) j → rowMajor (reverseN n) j.reverse = colMajor n j := by
    intro j hj
    rw [reverseN_eq, rowMajor_reverse (by rw [box_length hj, List.length_map])]
  refine ⟨by simp [manyBatch, fBatch, reverseN_eq], rfl, fun b j _ hj => ?_, fun b j _ hj => ?_⟩ <;>
    simp only [manyBatch, fBatch, key j hj]

/-! ### complex DFT -/

/-- **C61**, advanced interface (`execute` and `execute_dft`): transform `b` reads its element `(j₁, …, j_d)` where a Fortran array declared with extents `inembed` has it, `istride` apart and at distance `b*idist`;
the output likewise -/
theorem C61_many_dft (env : Env) (hs : ∀ d ∈ env.slvdescs, d.slv.Sound) {nt : ℕ} {tl : ℝ} {flags : U32} {a : FMany} {sign : Int} {st0 st0' : PSt} {ap : ApiPlan}
    (h : planManyDft env nt tl flags a sign st0 = .ok (some ap, st0')) (ok : a.Ok)
    (ho : (manyF a).OutInj) (hi : ¬ Preserves flags → (manyF a).InInj) (hsep : Separate (manyF a) a.inp a.out)
    {inp' out' : Ptr} {st : State} (hf : Fits (manyF a) a.inp a.out inp' out' st) :
    DoesDft (expSign sign) (manyF a) (¬ Preserves flags) inp' out' st (executeDft ap inp' out' st) ∧ execute ap = executeDft ap a.inp a.out := by
  have r := rev_many ok.ranks sign
  obtain ⟨h1, h2⟩ := many_core env hs h (ok_toC ok sign) (r.symm.outInj ho) (fun hp => r.symm.inInj (hi hp)) (r.symm.separate hsep) (r.symm.fits hf)
  exact ⟨r.doesDft h1, h2⟩

/-- **C61**, basic interface, any rank -/
theorem C61_dft (env : Env) (hs : ∀ d ∈ env.slvdescs, d.slv.Sound) {nt : ℕ} {tl : ℝ} {flags : U32} {n : List Int} {inp out : Ptr} {sign : Int}
    {st0 st0' : PSt} {ap : ApiPlan} (h : planDft env nt tl flags n inp out sign st0 = .ok (some ap, st0')) (hsep : Separate (basicF n) inp out)
    {inp' out' : Ptr} {st : State} (hf : Fits (basicF n) inp out inp' out' st) :
    DoesDft (expSign sign) (basicF n) (¬ Preserves flags) inp' out' st (executeDft ap inp' out' st) ∧ execute ap = executeDft ap inp out := by
  have r := rev_basic n
  obtain ⟨h1, h2⟩ := C01_plan_dft env hs h (r.symm.separate hsep) (r.symm.fits hf)
  exact ⟨r.doesDft h1, h2⟩

/-- **C61**, `plan_dft_1d` -/
theorem C61_dft_1d (env : Env) (hs : ∀ d ∈ env.slvdescs, d.slv.Sound) {nt : ℕ} {tl : ℝ} {flags : U32} {n : Int} {inp out : Ptr} {sign : Int}
    {st0 st0' : PSt} {ap : ApiPlan} (h : planDft1d env nt tl flags n inp out sign st0 = .ok (some ap, st0')) (hsep : Separate (basicF [n]) inp out)
    {inp' out' : Ptr} {st : State} (hf : Fits (basicF [n]) inp out inp' out' st) :
    DoesDft (expSign sign) (basicF [n]) (¬ Preserves flags) inp' out' st (executeDft ap inp' out' st) ∧ execute ap = executeDft ap inp out :=
  C61_dft env hs (n := [n]) h hsep hf

/-- **C61**, `plan_dft_2d` -/
theorem C61_dft_2d (env : Env) (hs : ∀ d ∈ env.slvdescs, d.slv.Sound) {nt : ℕ} {tl : ℝ} {flags : U32} {nx ny : Int} {inp out : Ptr} {sign : Int}
    {st0 st0' : PSt} {ap : ApiPlan} (h : planDft2d env nt tl flags nx ny inp out sign st0 = .ok (some ap, st0')) (hsep : Separate (basicF [nx, ny]) inp out)
    {inp' out' : Ptr} {st : State} (hf : Fits (basicF [nx, ny]) inp out inp' out' st) :
    DoesDft (expSign sign) (basicF [nx, ny]) (¬ Preserves flags) inp' out' st (executeDft ap inp' out' st) ∧ execute ap = executeDft ap inp out :=
  C61_dft env hs (n := [nx, ny]) h hsep hf

/-- **C61**, `plan_dft_3d` -/
theorem C61_dft_3d (env : Env) (hs : ∀ d ∈ env.slvdescs, d.slv.Sound) {nt : ℕ} {tl : ℝ} {flags : U32} {nx ny nz : Int} {inp out : Ptr} {sign : Int}
    {st0 st0' : PSt} {ap : ApiPlan} (h : planDft3d env nt tl flags nx ny nz inp out sign st0 = .ok (some ap, st0')) (hsep : Separate (basicF [nx, ny, nz]) inp out)
    {inp' out' : Ptr} {st : State} (hf : Fits (basicF [nx, ny, nz]) inp out inp' out' st) :
    DoesDft (expSign sign) (basicF [nx, ny, nz]) (¬ Preserves flags) inp' out' st (executeDft ap inp' out' st) ∧ execute ap = executeDft ap inp out :=
  C61_dft env hs (n := [nx, ny, nz]) h hsep hf

/-- the two-dimensional case in coordinates: `out(k₁, k₂) = Σ_{j₁ j₂} exp(s 2πi (j₁ k₁ / n₁ + j₂ k₂ / n₂)) in(j₁, j₂)`, and `A(j₁, j₂)` is at position `j₁ + n₁ j₂` -/
theorem C61_dft_2d_coordinates (env : Env) (hs : ∀ d ∈ env.slvdescs, d.slv.Sound) {nt : ℕ} {tl : ℝ} {flags : U32} {nx ny : ℕ} {inp out : Ptr} {sign : Int}
    {st0 st0' : PSt} {ap : ApiPlan} (h : planDft2d env nt tl flags nx ny inp out sign st0 = .ok (some ap, st0')) (hsep : Separate (basicF [(nx : ℤ), (ny : ℤ)]) inp out)
    {st : State} (hi : inp.blk < st.next) (ho : out.blk < st.next) {k₁ k₂ : ℕ} (h1 : k₁ < nx) (h2 : k₂ < ny) :
    celt (execute ap st).mem out (k₁ + nx * k₂) = ∑ j₁ ∈ Finset.range nx, ∑ j₂ ∈ Finset.range ny,
      Complex.exp (expSign sign * (2 * Real.pi * Complex.I) * (j₁ * k₁) / nx) * Complex.exp (expSign sign * (2 * Real.pi * Complex.I) * (j₂ * k₂) / ny) *
        celt st.mem inp (j₁ + nx * j₂) := by
  obtain ⟨⟨hd, _⟩, he⟩ := C61_dft_2d env hs h hsep (inp' := inp) (out' := out) (st := st) ⟨Iff.rfl, hsep, hi, ho⟩
  have := hd [0] [k₁, k₂] (box_cons.2 ⟨0, [], by decide, box_nil.2 rfl, rfl⟩)
    (box_cons.2 ⟨k₁, [k₂], by simpa using h1, box_cons.2 ⟨k₂, [], by simpa using h2, box_nil.2 rfl, rfl⟩, rfl⟩)
  rw [he]
  simpa [fBatch, colMajor, sumBox, twist] using this

theorem makeDims_n : ∀ {n is os : List Int}, is.length = n.length → os.length = n.length →
    ((makeDims n is os).map fun d => d.n) = n ∧ ((makeDims n is os).map fun d => d.is) = is ∧ ((makeDims n is os).map fun d => d.os) = os
  | [], [], [], _, _ => ⟨rfl, rfl, rfl⟩
  | n :: ns, i :: is, o :: os, h1, h2 => by
    obtain ⟨e1, e2, e3⟩ := makeDims_n (n := ns) (is := is) (os := os) (by simpa using h1) (by simpa using h2)
    simp [makeDims, e1, e2, e3]

theorem makeDims_mem : ∀ {n is os : List Int} {d : IODim}, d ∈ makeDims n is os → d.is ∈ is ∧ d.os ∈ os
  | [], _, _, d, h => by simp [makeDims] at h
  | _ :: _, [], _, d, h => by simp [makeDims] at h
  | _ :: _, _ :: _, [], d, h => by simp [makeDims] at h
  | n :: ns, i :: is, o :: os, d, h => by
    rw [makeDims, List.mem_cons] at h
    rcases h with rfl | h
    · exact ⟨List.mem_cons_self, List.mem_cons_self⟩
    · exact ⟨List.mem_cons_of_mem _ (makeDims_mem h).1, List.mem_cons_of_mem _ (makeDims_mem h).2⟩

/-- the six arrays have the ranks passed -/
structure GuruRanks (n is os hn his hos : List Int) : Prop where
  is : is.length = n.length
  os : os.length = n.length
  his : his.length = hn.length
  hos : hos.length = hn.length

theorem guruF_eq {n is os hn his hos : List Int} (r : GuruRanks n is os hn his hos) : guruB (makeDims n is os) (makeDims hn his hos) = guruF n is os hn his hos := by
  obtain ⟨e1, e2, e3⟩ := makeDims_n r.is r.os
  obtain ⟨f1, f2, f3⟩ := makeDims_n r.his r.hos
  have c : ∀ l : List IODim, (l.map ofIo).map (·.n) = (l.map fun d => d.n).map (·.toNat) ∧ (l.map ofIo).map (·.is) = l.map (fun d => d.is) ∧
      (l.map ofIo).map (·.os) = l.map fun d => d.os := by
    intro l; simp [ofIo]
  simp only [guruB, guruBatch, c, e1, e2, e3, f1, f2, f3, guruF]

/-- **C61**, guru interface, complex DFT: nothing is reversed -/
theorem C61_guru_dft (env : Env) (hs : ∀ d ∈ env.slvdescs, d.slv.Sound) {nt : ℕ} {tl : ℝ} {flags : U32} {n is os hn his hos : List Int} {inp out : Ptr} {sign : Int}
    {st0 st0' : PSt} {ap : ApiPlan} (h : planGuruDft env nt tl flags n is os hn his hos inp out sign st0 = .ok (some ap, st0')) (r : GuruRanks n is os hn his hos)
    (hn0 : ∀ x, x ∈ is ∨ x ∈ os ∨ x ∈ his ∨ x ∈ hos → 0 ≤ x) (ho : (guruF n is os hn his hos).OutInj) (hi : ¬ Preserves flags → (guruF n is os hn his hos).InInj)
    (hsep : Separate (guruF n is os hn his hos) inp out) {inp' out' : Ptr} {st : State} (hf : Fits (guruF n is os hn his hos) inp out inp' out' st) :
    DoesDft (expSign sign) (guruF n is os hn his hos) (¬ Preserves flags) inp' out' st (executeDft ap inp' out' st) ∧ execute ap = executeDft ap inp out := by
  rw [← guruF_eq r] at *
  refine guru_core env hs (fun _ _ => int32_eq) h ?_ ho hi hsep hf
  rintro d (hd | hd)
  · exact ⟨hn0 _ (Or.inl (makeDims_mem hd).1), hn0 _ (Or.inr (Or.inl (makeDims_mem hd).2))⟩
  · exact ⟨hn0 _ (Or.inr (Or.inr (Or.inl (makeDims_mem hd).1))), hn0 _ (Or.inr (Or.inr (Or.inr (makeDims_mem hd).2)))⟩

/-! ### real-to-complex and complex-to-real -/

/-- what a call of the basic interface transforms: a real Fortran array `A(n₁, n₂, …)`, with room for `A(2*(n₁/2+1), n₂, …)` if in place, and a complex one `B(n₁/2+1, n₂, …)` -/
abbrev basicFR (inplace : Bool) (n₁ : Int) (n : List Int) : RBatch :=
  fRBatch n₁.toNat (n.map (·.toNat)) 1 (fRealEmbed inplace n₁.toNat (n.map (·.toNat))) 1 1 (fCplxEmbed n₁.toNat (n.map (·.toNat))) 1 1

/-- the batch a call of `plan_many_dft_r2c` describes, the ranks being `n₁ :: n` -/
abbrev manyFR (a : FMany) (n₁ : Int) (n : List Int) : RBatch :=
  fRBatch n₁.toNat (n.map (·.toNat)) a.howmany.toNat a.inembed a.istride a.idist a.onembed a.ostride a.odist
/-- the batch a call of `plan_many_dft_c2r` describes -/
abbrev manyFC (a : FMany) (n₁ : Int) (n : List Int) : RBatch :=
  fRBatch n₁.toNat (n.map (·.toNat)) a.howmany.toNat a.onembed a.ostride a.odist a.inembed a.istride a.idist

theorem lead_reverse (n₁ : Int) (n : List Int) : leadN (reverseN (n₁ :: n)) = (n.map (·.toNat)).reverse := by
  rw [reverseN_eq, leadN, List.reverse_cons, List.dropLast_concat, List.map_reverse]
theorem last_reverse (n₁ : Int) (n : List Int) : lastN (reverseN (n₁ :: n)) = n₁.toNat := by
  rw [reverseN_eq, lastN, List.reverse_cons, List.getLast?_concat]; rfl

theorem colMajor_reverse_snoc {e : List ℤ} {j : List ℕ} {i : ℕ} (h : j.length + 1 = e.length) : rowMajor e.reverse (j.reverse ++ [i]) = colMajor e (i :: j) := by
  rw [← rowMajor_reverse (by simpa using h), List.reverse_cons]

theorem rrev_manyR {a : FMany} {n₁ : Int} {n : List Int} (hn : a.n = n₁ :: n) (h : a.Ranks) : RRev (manyRB (a.toC 0)) (manyFR a n₁ n) := by
  have hj : ∀ j, Box (n.map (·.toNat)) j → j.length + 1 = a.n.length := by intro j hj; rw [hn, box_length hj]; simp
  refine ⟨?_, ?_, rfl, fun b j i _ hj' => ?_, fun b j i _ hj' => ?_⟩
  · simp only [FMany.toC, manyR, fRBatch, hn, lead_reverse]
  · simp only [FMany.toC, manyR, fRBatch, hn, last_reverse]
  · simp only [FMany.toC, manyR, fRBatch, Option.getD_some, reverseN_eq]
    rw [colMajor_reverse_snoc (by rw [h.1, hj j hj'])]
  · simp only [FMany.toC, manyR, fRBatch, Option.getD_some, reverseN_eq]
    rw [colMajor_reverse_snoc (by rw [h.2, hj j hj'])]

theorem rrev_manyC {a : FMany} {n₁ : Int} {n : List Int} (hn : a.n = n₁ :: n) (h : a.Ranks) : RRev (manyCB (a.toC 0)) (manyFC a n₁ n) := by
  have hj : ∀ j, Box (n.map (·.toNat)) j → j.length + 1 = a.n.length := by intro j hj; rw [hn, box_length hj]; simp
  refine ⟨?_, ?_, rfl, fun b j i _ hj' => ?_, fun b j i _ hj' => ?_⟩
  · simp only [FMany.toC, manyR, fRBatch, hn, lead_reverse]
  · simp only [FMany.toC, manyR, fRBatch, hn, last_reverse]
  · simp only [FMany.toC, manyR, fRBatch, Option.getD_some, reverseN_eq]
    rw [colMajor_reverse_snoc (by rw [h.2, hj j hj'])]
  · simp only [FMany.toC, manyR, fRBatch, Option.getD_some, reverseN_eq]
    rw [colMajor_reverse_snoc (by rw [h.1, hj j hj'])]

theorem rrev_basic (ip : Bool) (n₁ : Int) (n : List Int) : RRev (basicR ip (reverseN (n₁ :: n))) (basicFR ip n₁ n) := by
  have e1 : realEmbed ip (n.map (·.toNat)).reverse n₁.toNat = (fRealEmbed ip n₁.toNat (n.map (·.toNat))).reverse := by
    simp [realEmbed, fRealEmbed]
  have e2 : cplxEmbed (n.map (·.toNat)).reverse n₁.toNat = (fCplxEmbed n₁.toNat (n.map (·.toNat))).reverse := by
    simp [cplxEmbed, fCplxEmbed]
  refine ⟨?_, ?_, rfl, fun b j i _ hj' => ?_, fun b j i _ hj' => ?_⟩
  · simp only [basicR, manyR, fRBatch, lead_reverse]
  · simp only [basicR, manyR, fRBatch, last_reverse]
  · simp only [basicR, manyR, fRBatch, lead_reverse, last_reverse, e1]
    rw [colMajor_reverse_snoc (by rw [box_length hj']; simp [fRealEmbed, fRBatch])]
  · simp only [basicR, manyR, fRBatch, lead_reverse, last_reverse, e2]
    rw [colMajor_reverse_snoc (by rw [box_length hj']; simp [fCplxEmbed, fRBatch])]

/-- **C61**, r2c, advanced interface -/
theorem C61_many_r2c (env : Env) (hs : ∀ d ∈ env.slvdescs, d.slv.Sound) {nt : ℕ} {tl : ℝ} {flags : U32} {a : FMany} {n₁ : Int} {n : List Int} {st0 st0' : PSt} {ap : ApiPlan}
    (h : planManyR2c env nt tl flags a st0 = .ok (some ap, st0')) (hn : a.n = n₁ :: n) (hm : a.Ok) (ok : R2cOk (manyFR a n₁ n) flags a.inp (.interleaved a.out))
    {inp' out' : Ptr} {st : State} (hf : Fits2 (manyFR a n₁ n) a.inp (.interleaved a.out) inp' (.interleaved out') st) :
    DoesR2c (manyFR a n₁ n) (R2cDestroys flags a.inp (.interleaved a.out)) inp' (.interleaved out') st (executeDftR2c ap inp' out' st) ∧
      execute ap = executeDftR2c ap a.inp a.out := by
  have r := rrev_manyR hn hm.ranks
  obtain ⟨h1, h2⟩ := C54_many_r2c env hs h (ok_toC hm 0) (r.symm.r2cOk ok) (r.symm.fits2 hf)
  exact ⟨r.doesR2c h1, h2⟩

/-- **C61**, c2r, advanced interface -/
theorem C61_many_c2r (env : Env) (hs : ∀ d ∈ env.slvdescs, d.slv.Sound) {nt : ℕ} {tl : ℝ} {flags : U32} {a : FMany} {n₁ : Int} {n : List Int} {st0 st0' : PSt} {ap : ApiPlan}
    (h : planManyC2r env nt tl flags a st0 = .ok (some ap, st0')) (hn : a.n = n₁ :: n) (hm : a.Ok) (ok : C2rOk (manyFC a n₁ n) flags a.out (.interleaved a.inp))
    {inp' out' : Ptr} {st : State} (hf : Fits2 (manyFC a n₁ n) a.out (.interleaved a.inp) out' (.interleaved inp') st) :
    DoesC2r (manyFC a n₁ n) (C2rDestroys flags a.out (.interleaved a.inp)) out' (.interleaved inp') st (executeDftC2r ap inp' out' st) ∧
      execute ap = executeDftC2r ap a.inp a.out := by
  have r := rrev_manyC hn hm.ranks
  obtain ⟨h1, h2⟩ := C54_many_c2r env hs h (ok_toC hm 0) (r.symm.c2rOk ok) (r.symm.fits2 hf)
  exact ⟨r.doesC2r h1, h2⟩

/-- **C61**, r2c, basic interface, any rank: the first dimension of the complex array is halved -/
theorem C61_dft_r2c (env : Env) (hs : ∀ d ∈ env.slvdescs, d.slv.Sound) {nt : ℕ} {tl : ℝ} {flags : U32} {n₁ : Int} {n : List Int} {inp out : Ptr}
    {st0 st0' : PSt} {ap : ApiPlan} (h : planDftR2c env nt tl flags (n₁ :: n) inp out st0 = .ok (some ap, st0'))
    (hsep : inp ≠ out → (basicFR false n₁ n).Apart inp (.interleaved out))
    {inp' out' : Ptr} {st : State} (hf : Fits2 (basicFR (decide (inp = out)) n₁ n) inp (.interleaved out) inp' (.interleaved out') st) :
    DoesR2c (basicFR (decide (inp = out)) n₁ n) (¬ Preserves flags ∨ inp = out) inp' (.interleaved out') st (executeDftR2c ap inp' out' st) ∧
      execute ap = executeDftR2c ap inp out := by
  have r := rrev_basic (decide (inp = out)) n₁ n
  obtain ⟨h1, h2⟩ := C54_plan_dft_r2c env hs h (fun hne => (rrev_basic false n₁ n).symm.apart (hsep hne)) (r.symm.fits2 hf)
  exact ⟨r.doesR2c h1, h2⟩

/-- **C61**, c2r, basic interface, any rank -/
theorem C61_dft_c2r (env : Env) (hs : ∀ d ∈ env.slvdescs, d.slv.Sound) {nt : ℕ} {tl : ℝ} {flags : U32} {n₁ : Int} {n : List Int} {inp out : Ptr}
    {st0 st0' : PSt} {ap : ApiPlan} (h : planDftC2r env nt tl flags (n₁ :: n) inp out st0 = .ok (some ap, st0'))
    (hsep : out ≠ inp → (basicFR false n₁ n).Apart out (.interleaved inp))
    {inp' out' : Ptr} {st : State} (hf : Fits2 (basicFR (decide (out = inp)) n₁ n) out (.interleaved inp) out' (.interleaved inp') st) :
    DoesC2r (basicFR (decide (out = inp)) n₁ n) (¬ Props.Has flags FFTW_PRESERVE_INPUT ∨ out = inp) out' (.interleaved inp') st (executeDftC2r ap inp' out' st) ∧
      execute ap = executeDftC2r ap inp out := by
  have r := rrev_basic (decide (out = inp)) n₁ n
  obtain ⟨h1, h2⟩ := C54_plan_dft_c2r env hs h (fun hne => (rrev_basic false n₁ n).symm.apart (hsep hne)) (r.symm.fits2 hf)
  exact ⟨r.doesC2r h1, h2⟩

/-- **C61**: `plan_dft_r2c_1d`, `_2d`, `_3d` and their c2r counterparts are the general functions on the list of their sizes -/
theorem C61_r2c_low_rank (env : Env) (nt : ℕ) (tl : ℝ) (flags : U32) (nx ny nz : Int) (inp out : Ptr) (st : PSt) :
    planDftR2c1d env nt tl flags nx inp out st = planDftR2c env nt tl flags [nx] inp out st ∧
    planDftR2c2d env nt tl flags nx ny inp out st = planDftR2c env nt tl flags [nx, ny] inp out st ∧
    planDftR2c3d env nt tl flags nx ny nz inp out st = planDftR2c env nt tl flags [nx, ny, nz] inp out st ∧
    planDftC2r1d env nt tl flags nx inp out st = planDftC2r env nt tl flags [nx] inp out st ∧
    planDftC2r2d env nt tl flags nx ny inp out st = planDftC2r env nt tl flags [nx, ny] inp out st ∧
    planDftC2r3d env nt tl flags nx ny nz inp out st = planDftC2r env nt tl flags [nx, ny, nz] inp out st := ⟨rfl, rfl, rfl, rfl, rfl, rfl⟩

/-! ### real-to-real -/

/-- **C61**, r2r, advanced interface: `kind(i)` is the kind of the transforms along dimension `i` of the Fortran array -/
theorem C61_many_r2r (env : Env) (hs : ∀ d ∈ env.slvdescs, d.slv.Sound) {nt : ℕ} {tl : ℝ} {flags : U32} {a : FMany} {kind : List R2rKind} {st0 st0' : PSt} {ap : ApiPlan}
    (h : planManyR2r env nt tl flags a kind st0 = .ok (some ap, st0')) (hl : a.Ranks) (ok : R2rOk kind (manyF a) flags a.inp a.out)
    {inp' out' : Ptr} {st : State} (hf : FitsR (manyF a) a.inp a.out inp' out' st) :
    DoesR2r kind (manyF a) (¬ Preserves flags) inp' out' st (executeR2r ap inp' out' st) ∧ execute ap = executeR2r ap a.inp a.out := by
  have r := rev_many hl 0
  unfold planManyR2r at h
  rw [ints2kinds_eq] at h
  obtain ⟨h1, h2⟩ := C53_many_r2r env hs h ⟨by simp [FMany.toC, reverseN_eq, hl.1], by simp [FMany.toC, reverseN_eq, hl.2]⟩ (r.symm.r2rOk ok) (r.symm.fitsR hf)
  exact ⟨r.doesR2r ok.sizes h1, h2⟩

/-- **C61**, r2r, basic interface, any rank -/
theorem C61_r2r (env : Env) (hs : ∀ d ∈ env.slvdescs, d.slv.Sound) {nt : ℕ} {tl : ℝ} {flags : U32} {n : List Int} {inp out : Ptr} {kind : List R2rKind}
    {st0 st0' : PSt} {ap : ApiPlan} (h : planR2r env nt tl flags n inp out kind st0 = .ok (some ap, st0')) (hk : SizesOk kind (n.map (·.toNat)))
    (hsep : SeparateR (basicF n) inp out) {inp' out' : Ptr} {st : State} (hf : FitsR (basicF n) inp out inp' out' st) :
    DoesR2r kind (basicF n) (¬ Preserves flags) inp' out' st (executeR2r ap inp' out' st) ∧ execute ap = executeR2r ap inp out := by
  have r := rev_basic n
  unfold planR2r at h
  rw [ints2kinds_eq] at h
  have hk' : SizesOk kind.reverse ((reverseN n).map (·.toNat)) := by rw [reverseN_eq, List.map_reverse]; exact sizesOk_reverse hk
  obtain ⟨h1, h2⟩ := C53_plan_r2r env hs h hk' (r.symm.separateR hsep) (r.symm.fitsR hf)
  exact ⟨r.doesR2r hk h1, h2⟩

/-- **C61**: `plan_r2r_1d`, `_2d`, `_3d` are `plan_r2r` on the lists of their sizes and kinds -/
theorem C61_r2r_low_rank (env : Env) (nt : ℕ) (tl : ℝ) (flags : U32) (nx ny nz : Int) (inp out : Ptr) (kx ky kz : R2rKind) (st : PSt) :
    planR2r1d env nt tl flags nx inp out kx st = planR2r env nt tl flags [nx] inp out [kx] st ∧
    planR2r2d env nt tl flags nx ny inp out kx ky st = planR2r env nt tl flags [nx, ny] inp out [kx, ky] st ∧
    planR2r3d env nt tl flags nx ny nz inp out kx ky kz st = planR2r env nt tl flags [nx, ny, nz] inp out [kx, ky, kz] st := ⟨rfl, rfl, rfl⟩

/-- **C61**, r2r, guru interface: the kinds, and only they, are taken in reverse ("a slight bug that we are preserving for backwards compatibility", doc/legacy-fortran.texi): `kind(1)` belongs to the last dimension -/
theorem C61_guru_r2r_kinds_reversed (env : Env) (hs : ∀ d ∈ env.slvdescs, d.slv.Sound) {nt : ℕ} {tl : ℝ} {flags : U32} {n is os hn his hos : List Int} {inp out : Ptr} {kind : List R2rKind}
    {st0 st0' : PSt} {ap : ApiPlan} (h : planGuruR2r env nt tl flags n is os hn his hos inp out kind st0 = .ok (some ap, st0')) (r : GuruRanks n is os hn his hos)
    (ok : R2rOk kind.reverse (guruF n is os hn his hos) flags inp out) {inp' out' : Ptr} {st : State} (hf : FitsR (guruF n is os hn his hos) inp out inp' out' st) :
    DoesR2r kind.reverse (guruF n is os hn his hos) (¬ Preserves flags) inp' out' st (executeR2r ap inp' out' st) ∧ execute ap = executeR2r ap inp out := by
  unfold planGuruR2r at h
  rw [ints2kinds_eq] at h
  rw [← guruF_eq r] at *
  exact C53_guru_r2r env hs (fun _ _ => int32_eq) h ok hf

/-! ### examples -/

/-- `B(4, 3)` with the first index fastest -/
example : colMajor [4, 3] [1, 2] = 9 ∧ rowMajor [4, 3] [1, 2] = 5 := by decide

/-- arrays as `C61_dft_2d_coordinates` and `C61_dft` want them -/
example (st : State) (h : 2 ≤ st.next) : Fits (basicF [4, 3]) ⟨0, 0⟩ ⟨1, 0⟩ ⟨0, 5⟩ ⟨1, 7⟩ st := by
  refine ⟨by simp, Or.inr ?_, by show 0 < st.next; omega, by show 1 < st.next; omega⟩
  rintro q ⟨x, _, hx⟩ ⟨y, _, hy⟩
  have e1 : q.blk = 0 := by rcases hx with rfl | rfl <;> rfl
  have e2 : q.blk = 1 := by rcases hy with rfl | rfl <;> rfl
  omega

end FFTW.F77

namespace FFTW.Registered
open Tensor Spec DftS Planner Api RowMajor RdftS
open MapFlags (U32 FFTW_ESTIMATE)

attribute [local instance] sortLib

/-- the call of Props/Registered.lean, made from Fortran -/
def exF : F77.FMany := ⟨[64], 10, ⟨0,0⟩, [64], 1, 64, ⟨1,0⟩, [64], 10, 1⟩

theorem exF_plans : F77.planManyDft exE 1 (-1) FFTW_ESTIMATE exF 1 exS = .ok (some ⟨exPl, .dft exP, 1⟩, exS6) := by
  have := ex_plans
  unfold planManyDft at this
  rw [exA_problem] at this
  unfold F77.planManyDft planManyDft
  rw [show manyDftProblem (exF.toC 1) = some (some (.dft exP)) by with_unfolding_all rfl]
  exact this

/-- the hypotheses of `C61_many_dft` are met -/
example (st : State) (h : 2 ≤ st.next) : DoesDft 1 (F77.manyF exF) (¬ Preserves FFTW_ESTIMATE) ⟨0, 0⟩ ⟨1, 0⟩ st (F77.execute ⟨exPl, .dft exP, 1⟩ st) := by
  have key : ∀ b k b' k' : List ℕ, Box [10] b → Box [64] k → Box [10] b' → Box [64] k' → ∃ x y x' y', x < 10 ∧ y < 64 ∧ x' < 10 ∧ y' < 64 ∧ b = [x] ∧ k = [y] ∧ b' = [x'] ∧ k' = [y'] := by
    intro b k b' k' hb hk hb' hk'
    obtain ⟨x, xs, hx, h0, rfl⟩ := box_cons.1 hb
    obtain rfl := box_nil.1 h0
    obtain ⟨x', xs', hx', h0', rfl⟩ := box_cons.1 hb'
    obtain rfl := box_nil.1 h0'
    obtain ⟨y, ys, hy, h1, rfl⟩ := box_cons.1 hk
    obtain rfl := box_nil.1 h1
    obtain ⟨y', ys', hy', h1', rfl⟩ := box_cons.1 hk'
    obtain rfl := box_nil.1 h1'
    exact ⟨x, y, x', y', hx, hy, hx', hy', rfl, rfl, rfl, rfl⟩
  have hsep : Separate (F77.manyF exF) exF.inp exF.out := by
    right
    rintro q ⟨x, _, hx⟩ ⟨y, _, hy⟩
    have e1 : q.blk = 0 := by rcases hx with rfl | rfl <;> rfl
    have e2 : q.blk = 1 := by rcases hy with rfl | rfl <;> rfl
    omega
  have res := F77.C61_many_dft exE exE_sound exF_plans ⟨⟨rfl, rfl⟩, by simp [exF], by simp [exF]⟩ ?_ ?_ hsep
    (inp' := exF.inp) (out' := exF.out) (st := st) ⟨Iff.rfl, hsep, by show 0 < st.next; omega, by show 1 < st.next; omega⟩
  · have h2 := res.2
    rw [h2]; exact res.1
  · intro b k b' k' hb hk hb' hk' he
    obtain ⟨x, y, x', y', hx, hy, hx', hy', rfl, rfl, rfl, rfl⟩ := key b k b' k' hb hk hb' hk'
    simp [fBatch, exF, colMajor] at he
    constructor <;> congr 1 <;> omega
  · intro _ b k b' k' hb hk hb' hk' he
    obtain ⟨x, y, x', y', hx, hy, hx', hy', rfl, rfl, rfl, rfl⟩ := key b k b' k' hb hk hb' hk'
    simp [fBatch, exF, colMajor] at he
    constructor <;> congr 1 <;> omega

end FFTW.Registered
