import Verif.Proofs.ApiR2r

/-!
# C53: the r2r interface

Planning with any solvers that are sound, any wisdom, any flags, followed by any number of executions.  The user's promises: distinct elements of the
output (and, if the input may be destroyed, of the input) at distinct places; arrays that are either the same or do not overlap; an in-place DCT or DST
is not combined with a transposition (the library does not check this, and gets it wrong: `C35_inplace_transposed_wrong`); REDFT00 has size
at least 2.  Strides may be negative.
-/

namespace FFTW.Api
open Tensor Spec DftS Planner RowMajor RdftS
open MapFlags (U32)

variable [CLib]

/-- what an r2r transform does: the output is the transform of the *old* input; only output elements change, and input elements if that is allowed -/
def DoesR2r (kinds : List R2rKind) (B : Batch) (destroy : Prop) (inp out : Ptr) (st st' : State) : Prop :=
  R2rs kinds B (fun x => st.mem (inp + x)) (fun x => st'.mem (out + x)) ∧ OnlyChanges st st' fun q => RMem out B.Out q ∨ (destroy ∧ RMem inp B.Inp q)

/-- what can be executed: arrays of the plan's kind (in place or not), existing, not overlapping -/
structure FitsR (B : Batch) (inp out inp' out' : Ptr) (st : State) : Prop where
  kind : inp' = out' ↔ inp = out
  sep : SeparateR B inp' out'
  inpOk : inp'.blk < st.next
  outOk : out'.blk < st.next

/-- the user's promises -/
structure R2rOk (kinds : List R2rKind) (B : Batch) (flags : U32) (inp out : Ptr) : Prop where
  sizes : SizesOk kinds B.n
  outInj : B.OutInj
  inInj : ¬ Preserves flags → B.InInj
  sep : SeparateR B inp out
  straight : inp = out → (∃ kd ∈ kinds, kd.trig = true) → B.Straight

/-- **C53**, guru interface (`execute` and `execute_r2r`): the result is the separable product of the documented one-dimensional transforms of the input,
whatever solvers the planner chose and whatever wisdom it used -/
theorem C53_guru_r2r (env : Env) (hs : ∀ d ∈ env.slvdescs, d.slv.Sound) {chk : Int → C Int} (hc : ∀ x y, chk x = some y → y = x)
    {n : ℕ} {tl : ℝ} {flags : U32} {dims howmany : List IODim} {inp out : Ptr} {kinds : List R2rKind} {st0 st0' : PSt} {ap : ApiPlan}
    (h : planGuruR2r chk env n tl flags dims howmany inp out kinds st0 = .ok (some ap, st0'))
    (ok : R2rOk kinds (guruB dims howmany) flags inp out) {inp' out' : Ptr} {st : State} (hf : FitsR (guruB dims howmany) inp out inp' out' st) :
    DoesR2r kinds (guruB dims howmany) (¬ Preserves flags) inp' out' st (executeR2r ap inp' out' st) ∧ execute ap = executeR2r ap inp out := by
  refine real_api (L := ⟨dims.map ofIo, howmany.map ofIo⟩) env hs h ?_ ok.sizes ok.outInj ok.inInj ok.sep ok.straight hf.kind hf.sep hf.inpOk hf.outOk
  intro p hp
  unfold guruR2rProblem at hp
  split at hp
  · simp at hp
  rename_i hk
  simp only [Option.bind_eq_bind, Option.pure_def] at hp
  obtain ⟨sz, hsz, hp⟩ := Option.bind_eq_some_iff.1 hp
  obtain ⟨v, hv, hp⟩ := Option.bind_eq_some_iff.1 hp
  obtain rfl := Option.some.inj (Option.some.inj hp)
  have e1 : ∀ l : List Dim, (l.map fun d => (⟨d.n, 1 * d.is, 1 * d.os⟩ : Dim)) = l := by
    intro l; simp
  rw [iodims_eq hc 1 _ _ hsz, iodims_eq hc 1 _ _ hv, e1, e1]
  refine ⟨rfl, ?_⟩
  intro d hd
  obtain ⟨e, he, rfl⟩ := List.mem_map.1 hd
  simp only [guruKosherp, iodimsKosherp, Bool.not_eq_false, Bool.and_eq_true, List.all_eq_true, Bool.false_eq_true, if_false] at hk
  have := hk.1 e he
  simp only [Bool.not_eq_true', decide_eq_false_iff_not, not_le] at this
  show 0 < e.n.toNat
  omega

theorem Same.R2rs {A B : Batch} (h : A.Same B) {kinds : List R2rKind} {gi go : ℤ → ℝ} (hk : SizesOk kinds A.n) (hA : R2rs kinds A gi go) : R2rs kinds B gi go := by
  intro b k hb hk'
  have s := h.symm
  have hb2 := hb; have hk2 := hk'
  rw [s.v] at hb2; rw [s.n] at hk2
  rw [s.out b k hb hk', hA b k hb2 hk2, ← s.n]
  rw [← s.n] at hk
  exact docNd_congr hk hk' fun j hj => by rw [s.inp b j hb hj]

theorem Same.SeparateR {A B : Batch} (h : A.Same B) {p q : Ptr} (hA : SeparateR A p q) : SeparateR B p q := by
  unfold Spec.SeparateR at *; rwa [← Same.Inp h, ← Same.Out h]

theorem Same.Straight {A B : Batch} (h : A.Same B) (hA : A.Straight) : B.Straight := by
  have s := h.symm
  refine ⟨fun x hx => hA.1 x (s.v ▸ hx), fun b j hb hj => ?_⟩
  rw [s.inp b j hb hj, s.out b j hb hj]
  exact hA.2 b j (s.v ▸ hb) (s.n ▸ hj)

/-- the embeddings have the right rank -/
def EmbedsOk (a : Many) : Prop := (a.inembed.getD a.n).length = a.n.length ∧ (a.onembed.getD a.n).length = a.n.length

/-- **C53**, advanced interface: transform `b` reads its element `j` at `b*idist + istride * rowMajor inembed j` and writes its element `k` at
`b*odist + ostride * rowMajor onembed k` -/
theorem C53_many_r2r (env : Env) (hs : ∀ d ∈ env.slvdescs, d.slv.Sound) {n : ℕ} {tl : ℝ} {flags : U32} {a : Many} {kinds : List R2rKind} {st0 st0' : PSt}
    {ap : ApiPlan} (h : planManyR2r env n tl flags a kinds st0 = .ok (some ap, st0')) (hl : EmbedsOk a)
    (ok : R2rOk kinds (manyB a) flags a.inp a.out) {inp' out' : Ptr} {st : State} (hf : FitsR (manyB a) a.inp a.out inp' out' st) :
    DoesR2r kinds (manyB a) (¬ Preserves flags) inp' out' st (executeR2r ap inp' out' st) ∧ execute ap = executeR2r ap a.inp a.out := by
  have hS := many_same' hl
  have hsz : SizesOk kinds (manyL a).batch.n := by rw [hS.n]; exact ok.sizes
  have key := real_api (L := manyL a) env hs h (inp := a.inp) (out := a.out) ?_ hsz (Same.OutInj hS.symm ok.outInj)
    (fun h => Same.InInj hS.symm (ok.inInj h)) (Same.SeparateR hS.symm ok.sep) (fun h1 h2 => Same.Straight hS.symm (ok.straight h1 h2)) hf.kind
    (Same.SeparateR hS.symm hf.sep) hf.inpOk hf.outOk
  · refine ⟨⟨Same.R2rs hS hsz key.1.1, ?_⟩, key.2⟩
    have := key.1.2
    rw [show (manyL a).Out = _ from Same.Out hS, show (manyL a).Inp = _ from Same.Inp hS] at this
    exact this
  · intro p hp
    unfold manyR2rProblem at hp
    split at hp
    · simp at hp
    rename_i hk
    have hpos := ((Props.C39_kosher a.n a.howmany).1 (by simpa using hk)).2
    simp only [Option.bind_eq_bind, Option.pure_def] at hp
    obtain ⟨sz, hsz, hp⟩ := Option.bind_eq_some_iff.1 hp
    obtain rfl := Option.some.inj (Option.some.inj hp)
    rw [(rowmajor_eq _ _ _ _ hsz).1]
    refine ⟨rfl, ?_⟩
    intro d hd
    have : d.n ∈ (rmDims (a.n.zip ((a.inembed.getD a.n).zip (a.onembed.getD a.n))) a.istride a.ostride).map (·.n) := List.mem_map_of_mem hd
    rw [rmDims_n] at this
    obtain ⟨e, he, h0⟩ := List.mem_map.1 this
    have h1 := hpos e.1 ((List.of_mem_zip (a := e.1) (b := e.2) he).1)
    omega

/-- **C53**, basic interface `fftw_plan_r2r`, `fftw_plan_r2r_1d`, …: the only promises needed are that the arrays are the same or do not overlap and that
REDFT00 has size at least 2 -/
theorem C53_plan_r2r (env : Env) (hs : ∀ d ∈ env.slvdescs, d.slv.Sound) {n : ℕ} {tl : ℝ} {flags : U32} {sizes : List Int} {inp out : Ptr} {kinds : List R2rKind}
    {st0 st0' : PSt} {ap : ApiPlan} (h : planR2r env n tl flags sizes inp out kinds st0 = .ok (some ap, st0')) (hk : SizesOk kinds (sizes.map (·.toNat)))
    (hsep : SeparateR (basicB sizes) inp out) {inp' out' : Ptr} {st : State} (hf : FitsR (basicB sizes) inp out inp' out' st) :
    DoesR2r kinds (basicB sizes) (¬ Preserves flags) inp' out' st (executeR2r ap inp' out' st) ∧ execute ap = executeR2r ap inp out := by
  obtain ⟨p, _, hp, _⟩ := planWith_some h
  have hpos : ∀ x ∈ sizes, 0 < x := by
    unfold manyR2rProblem at hp
    split at hp
    · simp at hp
    rename_i hk
    have := (Props.C39_kosher sizes 1).1 (by simpa using hk)
    exact fun x hx => this.2 x hx
  obtain ⟨i1, i2⟩ := basic_inj hpos
  exact C53_many_r2r env hs h ⟨rfl, rfl⟩ ⟨hk, i1, fun _ => i2, hsep, fun _ _ => ⟨by simp [manyBatch], fun _ _ _ _ => rfl⟩⟩ hf

/-- **C36** in several dimensions: a transform followed by the inverse kinds multiplies by the product of the logical sizes -/
theorem C36_inverse_nd {kinds : List R2rKind} {n : List ℕ} (hk : SizesOk kinds n) (x : List ℕ → ℝ) {m : List ℕ} (hm : Box n m) :
    docNd (kinds.map R2rKind.inv) n (docNd kinds n x) m = ((List.zipWith R2rKind.logical kinds n).prod : ℕ) * x m :=
  inverse_nd hk x hm

/-- **C36** at the API: an r2r plan from `x` to `y` followed by a plan for the inverse kinds from `y` to `z` leaves in `z` the old contents of `x` times
the logical size -/
theorem C36_roundtrip (env : Env) (hs : ∀ d ∈ env.slvdescs, d.slv.Sound) {n n' : ℕ} {tl tl' : ℝ} {flags flags' : U32} {sizes : List Int} {x y z : Ptr}
    {kinds : List R2rKind} {st0 st1 st2 st3 : PSt} {f g : ApiPlan} (hf : planR2r env n tl flags sizes x y kinds st0 = .ok (some f, st1))
    (hg : planR2r env n' tl' flags' sizes y z (kinds.map R2rKind.inv) st2 = .ok (some g, st3)) (hk : SizesOk kinds (sizes.map (·.toNat)))
    (hxy : SeparateR (basicB sizes) x y) (hyz : SeparateR (basicB sizes) y z)
    (st : State) (hx : x.blk < st.next) (hy : y.blk < st.next) (hz : z.blk < st.next) (j : List ℕ) (hj : Box (sizes.map (·.toNat)) j) :
    (execute g (execute f st)).mem (z + rowMajor sizes j) =
      ((List.zipWith R2rKind.logical kinds (sizes.map (·.toNat))).prod : ℕ) * st.mem (x + rowMajor sizes j) := by
  obtain ⟨h1, e1⟩ := C53_plan_r2r env hs hf hk hxy (st := st) ⟨Iff.rfl, hxy, hx, hy⟩
  rw [← e1] at h1
  have hnext := h1.2.next
  have hk' := sizesOk_inv hk
  obtain ⟨h2, e2⟩ := C53_plan_r2r env hs hg hk' hyz (st := execute f st) ⟨Iff.rfl, hyz, by omega, by omega⟩
  rw [← e2] at h2
  have hb : Box [1] [0] := box_cons.2 ⟨0, [], by norm_num, box_nil.2 rfl, rfl⟩
  have a1 := fun k hk => h1.1 [0] k hb hk
  have a2 := h2.1 [0] j hb hj
  simp only [manyBatch, List.headD_cons, Nat.cast_zero, zero_mul, one_mul, zero_add] at a1 a2
  rw [a2, ← C36_inverse_nd hk (fun j => st.mem (x + rowMajor sizes j)) hj]
  exact docNd_congr hk' hj fun k hk => a1 k hk

end FFTW.Api
