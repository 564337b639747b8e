import Verif.Proofs.ApiR2c4

/-!
# C54: real-to-complex and complex-to-real plans

Planning with any solvers that are sound, any wisdom, any flags, followed by any number of executions.  The user's promises: no negative strides;
distinct elements of the output (and, if the input may be destroyed, of the input) at distinct places; arrays that either do not overlap, or are of the padded
in-place format: every complex row begins where its real row begins, and different rows do not overlap.

The library itself checks for in-place problems only that strides of real and complex rows agree.
-/

namespace FFTW.Api
open Tensor Spec DftS Planner RowMajor
open MapFlags (U32 FFTW_PRESERVE_INPUT)

/-- what an r2c transform does: the complex output is the non-redundant half of the DFT of the *old* real input; nothing changes but output elements, and
input elements if that is allowed -/
def DoesR2c (B : RBatch) (destroy : Prop) (r : Ptr) (A : CArr) (st st' : State) : Prop :=
  R2cs B (fun x => st.mem (r + x)) (A.elt st'.mem) ∧ OnlyChanges st st' fun q => A.Mem B.Cplx q ∨ (destroy ∧ RMem r B.Real q)

/-- what a c2r transform does: the real output is the backward DFT of the Hermitian spectrum of which the *old* input is the first half -/
def DoesC2r (B : RBatch) (destroy : Prop) (r : Ptr) (A : CArr) (st st' : State) : Prop :=
  C2rs B (A.elt st.mem) (fun x => st'.mem (r + x)) ∧ OnlyChanges st st' fun q => RMem r B.Real q ∨ (destroy ∧ A.Mem B.Cplx q)

/-- an r2c plan made with these flags may overwrite its input: FFTW_DESTROY_INPUT without FFTW_PRESERVE_INPUT, or in place -/
def R2cDestroys (flags : U32) (r : Ptr) (A : CArr) : Prop := ¬ Preserves flags ∨ r = A.re 0
/-- a c2r plan may overwrite its input unless FFTW_PRESERVE_INPUT is given -/
def C2rDestroys (flags : U32) (r : Ptr) (A : CArr) : Prop := ¬ Props.Has flags FFTW_PRESERVE_INPUT ∨ r = A.re 0

/-- the user's promises, r2c -/
structure R2cOk (B : RBatch) (flags : U32) (r : Ptr) (A : CArr) : Prop where
  out : B.CplxInj ∧ A.PartsApart B.Cplx
  inp : R2cDestroys flags r A → B.RealInj
  arr : B.Arranged r A

/-- the user's promises, c2r -/
structure C2rOk (B : RBatch) (flags : U32) (r : Ptr) (A : CArr) : Prop where
  out : B.RealInj
  inp : C2rDestroys flags r A → B.CplxInj ∧ A.PartsApart B.Cplx
  arr : B.Arranged r A

variable [CLib]

theorem reim_minus (c : Ptr) : extractReim FFT_SIGN c = (c, c + (1 : ℤ)) := by
  simp [extractReim, FFT_SIGN]

theorem R2cOk.core {B : RBatch} {flags : U32} {r : Ptr} {A : CArr} (ok : R2cOk B flags r A) : R2Ok .R2HC B (¬ Preserves flags) r A :=
  ⟨fun h => ok.inp (by rcases h with h | h; exacts [by simp at h, h]), fun _ => ok.out, ok.arr⟩

theorem c2r_destroys {flags : U32} {ri out : Ptr} {A : CArr} (h0 : A.re 0 = ri) :
    (¬ Preserves (c2rFlags flags ri out) ∨ out = A.re 0) ↔ C2rDestroys flags out A := by
  unfold C2rDestroys
  by_cases h : out = A.re 0
  · simp [h]
  · simp only [h, or_false]
    rw [c2r_preserves (by rwa [h0] at h)]

theorem C2rOk.core {B : RBatch} {flags : U32} {r ri : Ptr} {A : CArr} (h0 : A.re 0 = ri) (ok : C2rOk B flags r A) :
    R2Ok .HC2R B (¬ Preserves (c2rFlags flags ri r)) r A :=
  ⟨fun _ => ok.out, fun h => ok.inp ((c2r_destroys h0).1 (by rcases h with h | h; exacts [by simp at h, h])), ok.arr⟩

/-! ### guru interface -/

/-- the batch a guru r2c call describes -/
abbrev guruRB (dims howmany : List IODim) : RBatch := guruR2c (dims.map ofIo) (howmany.map ofIo)
/-- the batch a guru c2r call describes -/
abbrev guruCB (dims howmany : List IODim) : RBatch := guruC2r (dims.map ofIo) (howmany.map ofIo)

theorem guru_pos {dims howmany : List IODim} (hk : ¬ guruKosherp dims howmany = false) : Pos (dims.map ofIo) := by
  intro d hd
  obtain ⟨e, he, rfl⟩ := List.mem_map.1 hd
  simp only [guruKosherp, iodimsKosherp, Bool.not_eq_false, Bool.and_eq_true, List.all_eq_true, Bool.false_eq_true, if_false] at hk
  have := hk.1 e he
  simp only [Bool.not_eq_true', decide_eq_false_iff_not, not_le] at this
  show 0 < e.n.toNat
  omega

theorem guru_nonneg {l : List IODim} (h : ∀ d ∈ l, 0 ≤ d.is ∧ 0 ≤ d.os) : FFTW.NonNeg (l.map ofIo) := by
  intro d hd
  obtain ⟨e, he, rfl⟩ := List.mem_map.1 hd
  exact h e he

/-- **C54**, guru interface (`execute` and `execute_dft_r2c`), interleaved complex output -/
theorem C54_guru_r2c (env : Env) (hs : ∀ d ∈ env.slvdescs, d.slv.Sound) {chk : Int → C Int} (hc : ∀ x y, chk x = some y → y = x)
    {n : ℕ} {tl : ℝ} {flags : U32} {dims howmany : List IODim} {inp out : Ptr} {st0 st0' : PSt} {ap : ApiPlan}
    (h : planGuruR2c chk env n tl flags dims howmany inp out st0 = .ok (some ap, st0'))
    (hn : ∀ d, d ∈ dims ∨ d ∈ howmany → 0 ≤ d.is ∧ 0 ≤ d.os) (ok : R2cOk (guruRB dims howmany) flags inp (.interleaved out))
    {inp' out' : Ptr} {st : State} (hf : Fits2 (guruRB dims howmany) inp (.interleaved out) inp' (.interleaved out') st) :
    DoesR2c (guruRB dims howmany) (R2cDestroys flags inp (.interleaved out)) inp' (.interleaved out') st (executeDftR2c ap inp' out' st) ∧
      execute ap = executeDftR2c ap inp out := by
  have key := rdft2_api (k := .R2HC) (c := 2) (δ := 1) (sz := (dims.map ofIo).map (scl 1 2)) (loops := (howmany.map ofIo).map (scl 1 2)) (C := out) env hs h
    ?_ ok.core (C' := out') hf
  · obtain ⟨h1, h2⟩ := key
    unfold executeDftR2c
    rw [ptr_add_zero, ptr_add_zero]
    exact ⟨h1, h2⟩
  · intro p hp
    unfold guruR2cProblem at hp
    split at hp
    · simp at hp
    rename_i hk
    simp only [Option.bind_eq_bind, Option.pure_def, reim_minus] at hp
    obtain ⟨sz, hsz, hp⟩ := Option.bind_eq_some_iff.1 hp
    obtain ⟨v, hv, hp⟩ := Option.bind_eq_some_iff.1 hp
    obtain rfl := Option.some.inj (Option.some.inj hp)
    rw [iodims_eq2 hc 1 2 _ _ hsz, iodims_eq2 hc 1 2 _ _ hv]
    exact ⟨rfl, geo_r2c (by norm_num) (guru_nonneg fun d hd => hn d (Or.inl hd)) (guru_nonneg fun d hd => hn d (Or.inr hd)) (guru_pos hk)⟩

/-- **C54**, guru interface (`execute` and `execute_dft_c2r`), interleaved complex input -/
theorem C54_guru_c2r (env : Env) (hs : ∀ d ∈ env.slvdescs, d.slv.Sound) {chk : Int → C Int} (hc : ∀ x y, chk x = some y → y = x)
    {n : ℕ} {tl : ℝ} {flags : U32} {dims howmany : List IODim} {inp out : Ptr} {st0 st0' : PSt} {ap : ApiPlan}
    (h : planGuruC2r chk env n tl flags dims howmany inp out st0 = .ok (some ap, st0'))
    (hn : ∀ d, d ∈ dims ∨ d ∈ howmany → 0 ≤ d.is ∧ 0 ≤ d.os) (ok : C2rOk (guruCB dims howmany) flags out (.interleaved inp))
    {inp' out' : Ptr} {st : State} (hf : Fits2 (guruCB dims howmany) out (.interleaved inp) out' (.interleaved inp') st) :
    DoesC2r (guruCB dims howmany) (C2rDestroys flags out (.interleaved inp)) out' (.interleaved inp') st (executeDftC2r ap inp' out' st) ∧
      execute ap = executeDftC2r ap inp out := by
  have key := rdft2_api (k := .HC2R) (c := 2) (δ := 1) (sz := (dims.map ofIo).map (scl 2 1)) (loops := (howmany.map ofIo).map (scl 2 1)) (C := inp) env hs h
    ?_ (ok.core (by rw [reim_minus]; exact interleaved_zero inp)) (C' := inp') hf
  · obtain ⟨h1, h2⟩ := key
    unfold executeDftC2r
    rw [ptr_add_zero, ptr_add_zero]
    dsimp only at h1
    rw [← interleaved_carr, c2r_destroys (by rw [reim_minus]; exact interleaved_zero inp)] at h1
    exact ⟨h1, h2⟩
  · intro p hp
    unfold guruC2rProblem at hp
    split at hp
    · simp at hp
    rename_i hk
    simp only [Option.bind_eq_bind, Option.pure_def, reim_minus] at hp
    obtain ⟨sz, hsz, hp⟩ := Option.bind_eq_some_iff.1 hp
    obtain ⟨v, hv, hp⟩ := Option.bind_eq_some_iff.1 hp
    obtain rfl := Option.some.inj (Option.some.inj hp)
    rw [iodims_eq2 hc 2 1 _ _ hsz, iodims_eq2 hc 2 1 _ _ hv]
    exact ⟨rfl, geo_c2r (by norm_num) (guru_nonneg fun d hd => hn d (Or.inl hd)) (guru_nonneg fun d hd => hn d (Or.inr hd)) (guru_pos hk)⟩

/-- **C54**, guru interface (`execute` and `execute_split_dft_r2c`), split complex output.  The two pointers of a pair are in one block, and the arrays given
to `execute_split_dft_r2c` must have the same distance -/
theorem C54_guru_split_r2c (env : Env) (hs : ∀ d ∈ env.slvdescs, d.slv.Sound) {chk : Int → C Int} (hc : ∀ x y, chk x = some y → y = x)
    {n : ℕ} {tl : ℝ} {flags : U32} {dims howmany : List IODim} {inp ro io : Ptr} {st0 st0' : PSt} {ap : ApiPlan}
    (h : planGuruSplitR2c chk env n tl flags dims howmany inp ro io st0 = .ok (some ap, st0'))
    (hn : ∀ d, d ∈ dims ∨ d ∈ howmany → 0 ≤ d.is ∧ 0 ≤ d.os) (hb : io.blk = ro.blk) (ok : R2cOk (guruRB dims howmany) flags inp (.split ro io))
    {inp' ro' io' : Ptr} {st : State} (hd : io' = ro' + (io - ro)) (hf : Fits2 (guruRB dims howmany) inp (.split ro io) inp' (.split ro' io') st) :
    DoesR2c (guruRB dims howmany) (R2cDestroys flags inp (.split ro io)) inp' (.split ro' io') st (executeSplitDftR2c ap inp' ro' io' st) ∧
      execute ap = executeSplitDftR2c ap inp ro io := by
  have hd' : (io' - ro' : ℤ) = io - ro := by rw [hd]; show ro'.off + (io - ro) - ro'.off = _; ring
  have e' : CArr.split ro' io' = carr ro' 1 (io - ro) := by rw [split_carr (by rw [hd]; rfl), hd']
  rw [e', split_carr hb] at hf
  rw [split_carr hb] at ok
  have key := rdft2_api (k := .R2HC) (c := 1) (δ := io - ro) (sz := (dims.map ofIo).map (scl 1 1)) (loops := (howmany.map ofIo).map (scl 1 1)) (C := ro) env hs h
    ?_ ok.core (C' := ro') hf
  · obtain ⟨h1, h2⟩ := key
    unfold executeSplitDftR2c
    rw [ptr_sub_add hb] at h2
    rw [← hd] at h1
    rw [e', split_carr hb]
    exact ⟨h1, h2⟩
  · intro p hp
    unfold guruSplitR2cProblem at hp
    split at hp
    · simp at hp
    rename_i hk
    simp only [Option.bind_eq_bind, Option.pure_def] at hp
    obtain ⟨sz, hsz, hp⟩ := Option.bind_eq_some_iff.1 hp
    obtain ⟨v, hv, hp⟩ := Option.bind_eq_some_iff.1 hp
    obtain rfl := Option.some.inj (Option.some.inj hp)
    rw [iodims_eq2 hc 1 1 _ _ hsz, iodims_eq2 hc 1 1 _ _ hv, ptr_sub_add hb]
    exact ⟨rfl, geo_r2c (by norm_num) (guru_nonneg fun d hd => hn d (Or.inl hd)) (guru_nonneg fun d hd => hn d (Or.inr hd)) (guru_pos hk)⟩

/-- **C54**, guru interface (`execute` and `execute_split_dft_c2r`), split complex input -/
theorem C54_guru_split_c2r (env : Env) (hs : ∀ d ∈ env.slvdescs, d.slv.Sound) {chk : Int → C Int} (hc : ∀ x y, chk x = some y → y = x)
    {n : ℕ} {tl : ℝ} {flags : U32} {dims howmany : List IODim} {ri ii out : Ptr} {st0 st0' : PSt} {ap : ApiPlan}
    (h : planGuruSplitC2r chk env n tl flags dims howmany ri ii out st0 = .ok (some ap, st0'))
    (hn : ∀ d, d ∈ dims ∨ d ∈ howmany → 0 ≤ d.is ∧ 0 ≤ d.os) (hb : ii.blk = ri.blk) (ok : C2rOk (guruCB dims howmany) flags out (.split ri ii))
    {ri' ii' out' : Ptr} {st : State} (hd : ii' = ri' + (ii - ri)) (hf : Fits2 (guruCB dims howmany) out (.split ri ii) out' (.split ri' ii') st) :
    DoesC2r (guruCB dims howmany) (C2rDestroys flags out (.split ri ii)) out' (.split ri' ii') st (executeSplitDftC2r ap ri' ii' out' st) ∧
      execute ap = executeSplitDftC2r ap ri ii out := by
  have hd' : (ii' - ri' : ℤ) = ii - ri := by rw [hd]; show ri'.off + (ii - ri) - ri'.off = _; ring
  have e' : CArr.split ri' ii' = carr ri' 1 (ii - ri) := by rw [split_carr (by rw [hd]; rfl), hd']
  rw [e', split_carr hb] at hf
  rw [split_carr hb] at ok
  have hz : (carr ri 1 (ii - ri)).re 0 = ri := carr_zero _ _ _
  have key := rdft2_api (k := .HC2R) (c := 1) (δ := ii - ri) (sz := (dims.map ofIo).map (scl 1 1)) (loops := (howmany.map ofIo).map (scl 1 1)) (C := ri) env hs h
    ?_ (ok.core hz) (C' := ri') hf
  · obtain ⟨h1, h2⟩ := key
    unfold executeSplitDftC2r
    rw [ptr_sub_add hb] at h2
    dsimp only at h1
    rw [← hd, c2r_destroys hz] at h1
    rw [e', split_carr hb]
    exact ⟨h1, h2⟩
  · intro p hp
    unfold guruSplitC2rProblem at hp
    split at hp
    · simp at hp
    rename_i hk
    simp only [Option.bind_eq_bind, Option.pure_def] at hp
    obtain ⟨sz, hsz, hp⟩ := Option.bind_eq_some_iff.1 hp
    obtain ⟨v, hv, hp⟩ := Option.bind_eq_some_iff.1 hp
    obtain rfl := Option.some.inj (Option.some.inj hp)
    rw [iodims_eq2 hc 1 1 _ _ hsz, iodims_eq2 hc 1 1 _ _ hv, ptr_sub_add hb]
    exact ⟨rfl, geo_c2r (by norm_num) (guru_nonneg fun d hd => hn d (Or.inl hd)) (guru_nonneg fun d hd => hn d (Or.inr hd)) (guru_pos hk)⟩

/-! ### advanced and basic interface -/

/-- the batch a call of `plan_many_dft_r2c` describes; the default embeddings are those of the manual -/
abbrev manyRB (a : Many) : RBatch :=
  manyR (leadN a.n) (lastN a.n) a.howmany.toNat (a.inembed.getD (realEmbed (decide (a.inp = a.out)) (leadN a.n) (lastN a.n))) a.istride a.idist
    (a.onembed.getD (cplxEmbed (leadN a.n) (lastN a.n))) a.ostride a.odist

/-- the batch a call of `plan_many_dft_c2r` describes -/
abbrev manyCB (a : Many) : RBatch :=
  manyR (leadN a.n) (lastN a.n) a.howmany.toNat (a.onembed.getD (realEmbed (decide (a.out = a.inp)) (leadN a.n) (lastN a.n))) a.ostride a.odist
    (a.inembed.getD (cplxEmbed (leadN a.n) (lastN a.n))) a.istride a.idist

theorem embed_real {n : List Int} (hp : ∀ x ∈ n, 0 < x) {e : Option (List Int)} (he : ∀ l, e = some l → l.length = n.length ∧ ∀ x ∈ l, 0 ≤ x) (b : Bool) :
    ((rdft2Pad n e b false).getD []).length = n.length ∧ ∀ x ∈ (rdft2Pad n e b false).getD [], 0 ≤ x := by
  cases e with
  | some l => exact he l rfl
  | none =>
    by_cases hn : n = []
    · subst hn; simp [rdft2Pad]
    · rw [pad_real hn hp]
      refine ⟨?_, ?_⟩
      · rw [Option.getD_none, realEmbed_length, leadN]; have := List.length_pos_iff.2 hn; simp; omega
      · intro x hx
        simp only [Option.getD_none, realEmbed, List.mem_append, List.mem_map, List.mem_singleton] at hx
        rcases hx with ⟨y, _, rfl⟩ | rfl
        · omega
        · split <;> omega

theorem embed_cplx {n : List Int} (hp : ∀ x ∈ n, 0 < x) {e : Option (List Int)} (he : ∀ l, e = some l → l.length = n.length ∧ ∀ x ∈ l, 0 ≤ x) (b : Bool) :
    ((rdft2Pad n e b true).getD []).length = n.length ∧ ∀ x ∈ (rdft2Pad n e b true).getD [], 0 ≤ x := by
  cases e with
  | some l => exact he l rfl
  | none =>
    by_cases hn : n = []
    · subst hn; simp [rdft2Pad]
    · rw [pad_cplx hn hp]
      refine ⟨?_, ?_⟩
      · rw [Option.getD_none, cplxEmbed_length, leadN]; have := List.length_pos_iff.2 hn; simp; omega
      · intro x hx
        simp only [Option.getD_none, cplxEmbed, List.mem_append, List.mem_map, List.mem_singleton] at hx
        rcases hx with ⟨y, _, rfl⟩ | rfl <;> omega

/-- **C54**, advanced interface (`execute` and `execute_dft_r2c`): transform `b` reads real element `(j, i)` at `b*idist + istride * rowMajor inembed (j, i)` and
writes complex element `(k, q)`, `q ≤ m/2`, at `b*odist + ostride * rowMajor onembed (k, q)` -/
theorem C54_many_r2c (env : Env) (hs : ∀ d ∈ env.slvdescs, d.slv.Sound) {n : ℕ} {tl : ℝ} {flags : U32} {a : Many} {st0 st0' : PSt} {ap : ApiPlan}
    (h : planManyR2c env n tl flags a st0 = .ok (some ap, st0')) (hm : ManyOk a) (ok : R2cOk (manyRB a) flags a.inp (.interleaved a.out))
    {inp' out' : Ptr} {st : State} (hf : Fits2 (manyRB a) a.inp (.interleaved a.out) inp' (.interleaved out') st) :
    DoesR2c (manyRB a) (R2cDestroys flags a.inp (.interleaved a.out)) inp' (.interleaved out') st (executeDftR2c ap inp' out' st) ∧
      execute ap = executeDftR2c ap a.inp a.out := by
  have key := rdft2_api (k := .R2HC) (c := 2) (δ := 1)
    (sz := rmDims (a.n.zip (((rdft2Pad a.n a.inembed (decide (a.inp = a.out)) false).getD []).zip ((rdft2Pad a.n a.onembed (decide (a.inp = a.out)) true).getD [])))
      a.istride (2 * a.ostride)) (loops := [⟨a.howmany.toNat, a.idist, 2 * a.odist⟩]) (C := a.out) env hs h ?_ ok.core (C' := out') hf
  · obtain ⟨h1, h2⟩ := key
    unfold executeDftR2c
    rw [ptr_add_zero, ptr_add_zero]
    exact ⟨h1, h2⟩
  · intro p hp
    unfold manyR2cProblem at hp
    split at hp
    · simp at hp
    rename_i hk
    have hpos := ((Props.C39_kosher a.n a.howmany).1 (by simpa using hk)).2
    simp only [Option.bind_eq_bind, Option.pure_def, reim_minus] at hp
    obtain ⟨os, hos, hp⟩ := Option.bind_eq_some_iff.1 hp
    obtain ⟨sz, hsz, hp⟩ := Option.bind_eq_some_iff.1 hp
    obtain ⟨od, hod, hp⟩ := Option.bind_eq_some_iff.1 hp
    obtain rfl := Option.some.inj (Option.some.inj hp)
    rw [(rowmajor_eq _ _ _ _ hsz).1, int32_eq hos, int32_eq hod]
    obtain ⟨r1, r2⟩ := embed_real hpos hm.inembed (decide (a.inp = a.out))
    obtain ⟨c1, c2⟩ := embed_cplx hpos hm.onembed (decide (a.inp = a.out))
    exact ⟨rfl, geo_many (k := .R2HC) r1 c1 hpos r2 c2 hm.strides.1 hm.strides.2.1 hm.strides.2.2.1 hm.strides.2.2.2 rfl rfl
      (fun h => (pad_real h hpos _ _).symm) (fun h => (pad_cplx h hpos _ _).symm)⟩

/-- **C54**, advanced interface (`execute` and `execute_dft_c2r`) -/
theorem C54_many_c2r (env : Env) (hs : ∀ d ∈ env.slvdescs, d.slv.Sound) {n : ℕ} {tl : ℝ} {flags : U32} {a : Many} {st0 st0' : PSt} {ap : ApiPlan}
    (h : planManyC2r env n tl flags a st0 = .ok (some ap, st0')) (hm : ManyOk a) (ok : C2rOk (manyCB a) flags a.out (.interleaved a.inp))
    {inp' out' : Ptr} {st : State} (hf : Fits2 (manyCB a) a.out (.interleaved a.inp) out' (.interleaved inp') st) :
    DoesC2r (manyCB a) (C2rDestroys flags a.out (.interleaved a.inp)) out' (.interleaved inp') st (executeDftC2r ap inp' out' st) ∧
      execute ap = executeDftC2r ap a.inp a.out := by
  have key := rdft2_api (k := .HC2R) (c := 2) (δ := 1)
    (sz := rmDims (a.n.zip (((rdft2Pad a.n a.inembed (decide (a.out = a.inp)) true).getD []).zip ((rdft2Pad a.n a.onembed (decide (a.out = a.inp)) false).getD [])))
      (2 * a.istride) a.ostride) (loops := [⟨a.howmany.toNat, 2 * a.idist, a.odist⟩]) (C := a.inp) env hs h ?_
      (ok.core (by rw [reim_minus]; exact interleaved_zero a.inp)) (C' := inp') hf
  · obtain ⟨h1, h2⟩ := key
    unfold executeDftC2r
    rw [ptr_add_zero, ptr_add_zero]
    dsimp only at h1
    rw [← interleaved_carr, c2r_destroys (by rw [reim_minus]; exact interleaved_zero a.inp)] at h1
    exact ⟨h1, h2⟩
  · intro p hp
    unfold manyC2rProblem at hp
    split at hp
    · simp at hp
    rename_i hk
    have hpos := ((Props.C39_kosher a.n a.howmany).1 (by simpa using hk)).2
    simp only [Option.bind_eq_bind, Option.pure_def, reim_minus] at hp
    obtain ⟨is, his, hp⟩ := Option.bind_eq_some_iff.1 hp
    obtain ⟨sz, hsz, hp⟩ := Option.bind_eq_some_iff.1 hp
    obtain ⟨id, hid, hp⟩ := Option.bind_eq_some_iff.1 hp
    obtain rfl := Option.some.inj (Option.some.inj hp)
    rw [(rowmajor_eq _ _ _ _ hsz).1, int32_eq his, int32_eq hid]
    obtain ⟨r1, r2⟩ := embed_real hpos hm.onembed (decide (a.out = a.inp))
    obtain ⟨c1, c2⟩ := embed_cplx hpos hm.inembed (decide (a.out = a.inp))
    exact ⟨rfl, geo_many (k := .HC2R) r1 c1 hpos r2 c2 hm.strides.2.2.1 hm.strides.2.2.2 hm.strides.1 hm.strides.2.1 rfl rfl
      (fun h => (pad_real h hpos _ _).symm) (fun h => (pad_cplx h hpos _ _).symm)⟩

theorem basic_arranged {sizes : List Int} (hp : ∀ x ∈ sizes, 0 < x) {r c : Ptr}
    (hsep : r ≠ c → (basicR false sizes).Apart r (.interleaved c)) : (basicR (decide (r = c)) sizes).Arranged r (.interleaved c) := by
  by_cases h : r = c
  · subst h
    left
    rw [interleaved_zero]
    exact ⟨rfl, by rw [decide_eq_true rfl]; exact basic_inPlace hp r⟩
  · right
    rw [interleaved_zero]
    exact ⟨h, by rw [decide_eq_false h]; exact hsep h⟩

/-- **C54**, basic interface `fftw_plan_dft_r2c`, `fftw_plan_dft_r2c_1d`, …: the only promise needed is that the arrays, if different, do not overlap.  The real array is
row-major, its rows padded to `2*(m/2+1)` if in place; the complex array is row-major with rows of length `m/2+1`. -/
theorem C54_plan_dft_r2c (env : Env) (hs : ∀ d ∈ env.slvdescs, d.slv.Sound) {n : ℕ} {tl : ℝ} {flags : U32} {sizes : List Int} {inp out : Ptr}
    {st0 st0' : PSt} {ap : ApiPlan} (h : planDftR2c env n tl flags sizes inp out st0 = .ok (some ap, st0'))
    (hsep : inp ≠ out → (basicR false sizes).Apart inp (.interleaved out))
    {inp' out' : Ptr} {st : State} (hf : Fits2 (basicR (decide (inp = out)) sizes) inp (.interleaved out) inp' (.interleaved out') st) :
    DoesR2c (basicR (decide (inp = out)) sizes) (¬ Preserves flags ∨ inp = out) inp' (.interleaved out') st (executeDftR2c ap inp' out' st) ∧
      execute ap = executeDftR2c ap inp out := by
  have hm : ManyOk ⟨sizes, 1, inp, none, 1, 1, out, none, 1, 1, 0⟩ := ⟨by simp, by simp, by simp⟩
  obtain ⟨p, _, hp, _⟩ := planWith_some h
  have hpos : ∀ x ∈ sizes, 0 < x := by
    unfold manyR2cProblem at hp
    split at hp
    · simp at hp
    rename_i hk
    have := (Props.C39_kosher sizes 1).1 (by simpa using hk)
    exact fun x hx => this.2 x hx
  have key := C54_many_r2c env hs h hm ⟨⟨basic_cplxInj _ hpos, interleaved_apart _ _⟩, fun _ => basic_realInj _ hpos, basic_arranged hpos hsep⟩ hf
  rw [R2cDestroys, interleaved_zero] at key
  exact key

/-- **C54**, basic interface `fftw_plan_dft_c2r`, `fftw_plan_dft_c2r_1d`, … -/
theorem C54_plan_dft_c2r (env : Env) (hs : ∀ d ∈ env.slvdescs, d.slv.Sound) {n : ℕ} {tl : ℝ} {flags : U32} {sizes : List Int} {inp out : Ptr}
    {st0 st0' : PSt} {ap : ApiPlan} (h : planDftC2r env n tl flags sizes inp out st0 = .ok (some ap, st0'))
    (hsep : out ≠ inp → (basicR false sizes).Apart out (.interleaved inp))
    {inp' out' : Ptr} {st : State} (hf : Fits2 (basicR (decide (out = inp)) sizes) out (.interleaved inp) out' (.interleaved inp') st) :
    DoesC2r (basicR (decide (out = inp)) sizes) (¬ Props.Has flags FFTW_PRESERVE_INPUT ∨ out = inp) out' (.interleaved inp') st (executeDftC2r ap inp' out' st) ∧
      execute ap = executeDftC2r ap inp out := by
  have hm : ManyOk ⟨sizes, 1, inp, none, 1, 1, out, none, 1, 1, 0⟩ := ⟨by simp, by simp, by simp⟩
  obtain ⟨p, _, hp, _⟩ := planWith_some h
  have hpos : ∀ x ∈ sizes, 0 < x := by
    unfold manyC2rProblem at hp
    split at hp
    · simp at hp
    rename_i hk
    have := (Props.C39_kosher sizes 1).1 (by simpa using hk)
    exact fun x hx => this.2 x hx
  have key := C54_many_c2r env hs h hm ⟨basic_realInj _ hpos, fun _ => ⟨basic_cplxInj _ hpos, interleaved_apart _ _⟩, basic_arranged hpos hsep⟩ hf
  rw [C2rDestroys, interleaved_zero] at key
  exact key

/-! ### round trip -/

theorem sumBox_snoc {V : Type} [AddCommMonoid V] (n : List ℕ) (m : ℕ) (f : List ℕ → V) :
    sumBox (n ++ [m]) f = sumBox n fun k => ∑ q ∈ Finset.range m, f (k ++ [q]) := by
  induction n generalizing f with
  | nil => rfl
  | cons n ns ih => simp only [List.cons_append, sumBox, ih]

/-- **C54**: c2r after r2c multiplies by the size, whatever the arrays -/
theorem C54_c2r_inverts_r2c {B B' : RBatch} (hn : B'.n = B.n) (hm : B'.m = B.m) (hv : B'.v = B.v)
    (hpos : ∀ b k q, Box B.v b → Box B.n k → q ≤ B.m / 2 → B'.cplx b k q = B.cplx b k q)
    {x z : ℤ → ℝ} {X : ℤ → ℂ} (h1 : R2cs B x X) (h2 : C2rs B' X z) (b j : List ℕ) (i : ℕ) (hb : Box B.v b) (hj : Box B.n j) (hi : i < B.m) :
    z (B'.real b j i) = ((B.n ++ [B.m]).prod : ℕ) * x (B.real b j i) := by
  rw [h2 b j i (hv ▸ hb) (hn ▸ hj) (hm ▸ hi), hn, hm]
  have e : (sumBox B.n fun k => ∑ q ∈ Finset.range B.m, twist 1 (B.n ++ [B.m]) (k ++ [q]) (j ++ [i]) *
      hermitian B.n B.m (fun k q => X (B'.cplx b k q)) k q) = ((B.n ++ [B.m]).prod : ℂ) * (x (B.real b j i) : ℂ) := by
    have hji : Box (B.n ++ [B.m]) (j ++ [i]) := box_append.2 ⟨_, _, hj, box_cons.2 ⟨i, [], hi, box_nil.2 rfl, rfl⟩, rfl⟩
    have inv := inversion (B.n ++ [B.m]) (fun l => (x (B.real b (l.take B.n.length) (l.getD B.n.length 0)) : ℂ)) (j ++ [i]) hji
    rw [List.take_left' (box_length hj), List.getD_append_right _ _ _ _ (by rw [box_length hj]), box_length hj] at inv
    simp only [Nat.sub_self, List.getD_cons_zero] at inv
    rw [← inv, sumBox_snoc]
    refine sumBox_congr fun k hk => Finset.sum_congr rfl fun q hq => ?_
    have hq := Finset.mem_range.1 hq
    have hX : hermitian B.n B.m (fun k q => X (B'.cplx b k q)) k q = hermitian B.n B.m
        (fun k q => sumBox B.n fun j => ∑ i ∈ Finset.range B.m, twist (-1) (B.n ++ [B.m]) (j ++ [i]) (k ++ [q]) * (x (B.real b j i) : ℂ)) k q := by
      unfold hermitian
      split
      · rename_i h; dsimp only; rw [hpos b k q hb hk h, h1 b k q hb hk h]
      · dsimp only; rw [hpos b _ (B.m - q) hb (box_oppose hk) (by omega), h1 b _ (B.m - q) hb (box_oppose hk) (by omega)]
    rw [hX, hermitian_r2c (fun j i => x (B.real b j i)) hk hq, sumBox_snoc]
    congr 1
    refine sumBox_congr fun l hl => Finset.sum_congr rfl fun c _ => ?_
    rw [List.take_left' (box_length hl), List.getD_append_right _ _ _ _ (by rw [box_length hl]), box_length hl]
    simp
  rw [e]
  rw [← Complex.ofReal_natCast, ← Complex.ofReal_mul, Complex.ofReal_re]

/-- **C54** at the API, basic interface, arrays `x` (real), `c` (complex), `z` (real): a r2c plan from `x` to `c` followed by a c2r plan from `c` to `z` leaves in `z` the old contents of
`x` times the logical size; either or both plans may be in place -/
theorem C54_roundtrip (env : Env) (hs : ∀ d ∈ env.slvdescs, d.slv.Sound) {n n' : ℕ} {tl tl' : ℝ} {flags flags' : U32} {sizes : List Int} {x c z : Ptr}
    {st0 st1 st2 st3 : PSt} {f g : ApiPlan} (hf : planDftR2c env n tl flags sizes x c st0 = .ok (some f, st1))
    (hg : planDftC2r env n' tl' flags' sizes c z st2 = .ok (some g, st3))
    (hxc : x ≠ c → (basicR false sizes).Apart x (.interleaved c)) (hzc : z ≠ c → (basicR false sizes).Apart z (.interleaved c))
    (st : State) (hx : x.blk < st.next) (hc : c.blk < st.next) (hz : z.blk < st.next)
    (j : List ℕ) (i : ℕ) (hj : Box (leadN sizes) j) (hi : i < lastN sizes) :
    (execute g (execute f st)).mem (z + (basicR (decide (z = c)) sizes).real [0] j i) =
      ((leadN sizes ++ [lastN sizes]).prod : ℕ) * st.mem (x + (basicR (decide (x = c)) sizes).real [0] j i) := by
  have hfit : ∀ (r : Ptr) (s : State), (r ≠ c → (basicR false sizes).Apart r (.interleaved c)) → r.blk < s.next → c.blk < s.next →
      Fits2 (basicR (decide (r = c)) sizes) r (.interleaved c) r (.interleaved c) s := by
    intro r s h1 h2 h3
    refine ⟨Iff.rfl, fun h => ?_, h2, by rw [interleaved_zero]; exact h3⟩
    rw [interleaved_zero] at h
    rw [decide_eq_false h]; exact h1 h
  obtain ⟨h1, e1⟩ := C54_plan_dft_r2c env hs hf hxc (hfit x st hxc hx hc)
  rw [← e1] at h1
  have hnext := h1.2.next
  obtain ⟨h2, e2⟩ := C54_plan_dft_c2r env hs hg hzc (hfit z (execute f st) hzc (by omega) (by omega))
  rw [← e2] at h2
  exact C54_c2r_inverts_r2c (B := basicR (decide (x = c)) sizes) (B' := basicR (decide (z = c)) sizes) rfl rfl rfl (fun _ _ _ _ _ _ => rfl) h1.1 h2.1 [0] j i
    (box_cons.2 ⟨0, [], by norm_num, box_nil.2 rfl, rfl⟩) hj hi

end FFTW.Api
