import Verif.Proofs.ApiMany
import Verif.Props.RowMajor

/-!
# C01, C02, C03, C05, C06 at the level of the API

Planning with any solvers that are sound (`hs`; Props/Registered.lean lists those proved so), any wisdom, any flags, followed by any number of
executions.  The user's promises: no negative strides, distinct elements of the output (and, if the input may be destroyed, of the
input) at distinct places, and arrays that are either the same or do not overlap.
-/

namespace FFTW.Api
open Tensor Spec DftS Planner RowMajor
open MapFlags (U32)

variable [CLib]

/-- what a complex transform does with interleaved arrays: the output is the DFT with exponent sign `s` of the *old* input; only output
elements change, and input elements if that is allowed -/
def DoesDft (s : ℤ) (B : Batch) (destroy : Prop) (inp out : Ptr) (st st' : State) : Prop :=
  Dfts s B (celt st.mem inp) (celt st'.mem out) ∧ OnlyChanges st st' fun q => CMem out B.Out q ∨ (destroy ∧ CMem inp B.Inp q)

/-- the same for split arrays -/
def DoesDftS (s : ℤ) (B : Batch) (destroy : Prop) (ri ii ro io : Ptr) (st st' : State) : Prop :=
  Dfts s B (selt st.mem ri ii) (selt st'.mem ro io) ∧ OnlyChanges st st' fun q => SMem ro io B.Out q ∨ (destroy ∧ SMem ri ii B.Inp q)

/-- what can be executed: arrays of the plan's kind (in place or not), existing, not overlapping -/
structure Fits (B : Batch) (inp out inp' out' : Ptr) (st : State) : Prop where
  kind : inp' = out' ↔ inp = out
  sep : Separate B inp' out'
  inpOk : inp'.blk < st.next
  outOk : out'.blk < st.next

/-! ### guru interface -/

/-- the batch a guru call describes -/
abbrev guruB (dims howmany : List IODim) : Batch := guruBatch (dims.map ofIo) (howmany.map ofIo)

theorem guru_core (env : Env) (hs : ∀ d ∈ env.slvdescs, d.slv.Sound) {chk : Int → C Int} (hc : ∀ x y, chk x = some y → y = x)
    {n : ℕ} {tl : ℝ} {flags : U32} {dims howmany : List IODim} {inp out : Ptr} {sign : Int} {st0 st0' : PSt} {ap : ApiPlan}
    (h : planGuruDft chk env n tl flags dims howmany inp out sign st0 = .ok (some ap, st0'))
    (hn : ∀ d, d ∈ dims ∨ d ∈ howmany → 0 ≤ d.is ∧ 0 ≤ d.os) (ho : (guruB dims howmany).OutInj) (hi : ¬ Preserves flags → (guruB dims howmany).InInj)
    (hsep : Separate (guruB dims howmany) inp out) {inp' out' : Ptr} {st : State} (hf : Fits (guruB dims howmany) inp out inp' out' st) :
    DoesDft (expSign sign) (guruB dims howmany) (¬ Preserves flags) inp' out' st (executeDft ap inp' out' st) ∧
      execute ap = executeDft ap inp out := by
  refine interleaved_api (L := ⟨dims.map ofIo, howmany.map ofIo⟩) env hs h ?_ ?_ ho hi hsep hf.kind hf.sep hf.inpOk hf.outOk
  · intro p hp
    unfold guruDftProblem at hp
    split at hp
    · simp at hp
    rename_i hk
    simp only [Option.bind_eq_bind, Option.pure_def] at hp
    obtain ⟨sz, hsz, hp⟩ := Option.bind_eq_some_iff.1 hp
    obtain ⟨v, hv, hp⟩ := Option.bind_eq_some_iff.1 hp
    obtain rfl := Option.some.inj (Option.some.inj hp)
    rw [iodims_eq hc 2 _ _ hsz, iodims_eq hc 2 _ _ hv]
    refine ⟨rfl, ?_⟩
    intro d hd
    obtain ⟨e, he, rfl⟩ := List.mem_map.1 hd
    simp only [guruKosherp, iodimsKosherp, Bool.not_eq_false, Bool.and_eq_true, List.all_eq_true, Bool.false_eq_true, if_false] at hk
    have := hk.1 e he
    simp only [Bool.not_eq_true', decide_eq_false_iff_not, not_le] at this
    show 0 < e.n.toNat
    omega
  · intro d hd
    rcases hd with hd | hd <;> obtain ⟨e, he, rfl⟩ := List.mem_map.1 hd
    · exact hn e (Or.inl he)
    · exact hn e (Or.inr he)

/-- **C01** (with C02 and C03), guru interface: executing the plan stores in the output the DFT of the input, whatever solvers the
planner chose and whatever wisdom it used; nothing changes but the output elements and, unless the input is to be preserved, the input
elements.  `chk` is the range check of the interface's integer type. -/
theorem C01_guru_dft (env : Env) (hs : ∀ d ∈ env.slvdescs, d.slv.Sound) {chk : Int → C Int} (hc : ∀ x y, chk x = some y → y = x)
    {n : ℕ} {tl : ℝ} {flags : U32} {dims howmany : List IODim} {inp out : Ptr} {sign : Int} {st0 st0' : PSt} {ap : ApiPlan}
    (h : planGuruDft chk env n tl flags dims howmany inp out sign st0 = .ok (some ap, st0'))
    (hn : ∀ d, d ∈ dims ∨ d ∈ howmany → 0 ≤ d.is ∧ 0 ≤ d.os) (ho : (guruB dims howmany).OutInj) (hi : ¬ Preserves flags → (guruB dims howmany).InInj)
    (hsep : Separate (guruB dims howmany) inp out) (st : State) (hbi : inp.blk < st.next) (hbo : out.blk < st.next) :
    DoesDft (expSign sign) (guruB dims howmany) (¬ Preserves flags) inp out st (execute ap st) := by
  obtain ⟨h1, h2⟩ := guru_core env hs hc h hn ho hi hsep (inp' := inp) (out' := out) (st := st) ⟨Iff.rfl, hsep, hbi, hbo⟩
  rw [h2]; exact h1

/-- **C05**, guru interface: the same for any other arrays of the same kind -/
theorem C05_guru_execute_dft (env : Env) (hs : ∀ d ∈ env.slvdescs, d.slv.Sound) {chk : Int → C Int} (hc : ∀ x y, chk x = some y → y = x)
    {n : ℕ} {tl : ℝ} {flags : U32} {dims howmany : List IODim} {inp out : Ptr} {sign : Int} {st0 st0' : PSt} {ap : ApiPlan}
    (h : planGuruDft chk env n tl flags dims howmany inp out sign st0 = .ok (some ap, st0'))
    (hn : ∀ d, d ∈ dims ∨ d ∈ howmany → 0 ≤ d.is ∧ 0 ≤ d.os) (ho : (guruB dims howmany).OutInj) (hi : ¬ Preserves flags → (guruB dims howmany).InInj)
    (hsep : Separate (guruB dims howmany) inp out) {inp' out' : Ptr} {st : State} (hf : Fits (guruB dims howmany) inp out inp' out' st) :
    DoesDft (expSign sign) (guruB dims howmany) (¬ Preserves flags) inp' out' st (executeDft ap inp' out' st) :=
  (guru_core env hs hc h hn ho hi hsep hf).1

/-! ### advanced and basic interface -/

/-- the batch a call of the advanced interface describes -/
abbrev manyB (a : Many) : Batch :=
  manyBatch (a.n.map (·.toNat)) a.howmany.toNat (a.inembed.getD a.n) a.istride a.idist (a.onembed.getD a.n) a.ostride a.odist

/-- embeddings have the right rank; nothing is negative -/
structure ManyOk (a : Many) : Prop where
  inembed : ∀ e, a.inembed = some e → e.length = a.n.length ∧ ∀ x ∈ e, 0 ≤ x
  onembed : ∀ e, a.onembed = some e → e.length = a.n.length ∧ ∀ x ∈ e, 0 ≤ x
  strides : 0 ≤ a.istride ∧ 0 ≤ a.idist ∧ 0 ≤ a.ostride ∧ 0 ≤ a.odist

theorem int32_eq {x y : ℤ} (h : int32 x = some y) : y = x := by
  unfold int32 at h; split at h
  · exact (Option.some.inj h).symm
  · simp at h

/-- dimensions of an advanced call -/
def manyL (a : Many) : Layout :=
  ⟨rmDims (a.n.zip ((a.inembed.getD a.n).zip (a.onembed.getD a.n))) a.istride a.ostride, [⟨a.howmany.toNat, a.idist, a.odist⟩]⟩

theorem zip3 {α : Type} {a b c : List α} (h1 : b.length = a.length) (h2 : c.length = a.length) :
    (a.zip (b.zip c)).map (·.1) = a ∧ (a.zip (b.zip c)).map (·.2.1) = b ∧ (a.zip (b.zip c)).map (·.2.2) = c := by
  refine ⟨List.map_fst_zip (by simp [h1, h2]), ?_, ?_⟩
  · rw [show (fun x : α × α × α => x.2.1) = Prod.fst ∘ Prod.snd from rfl, ← List.map_map, List.map_snd_zip (by simp [h1, h2]), List.map_fst_zip (by omega)]
  · rw [show (fun x : α × α × α => x.2.2) = Prod.snd ∘ Prod.snd from rfl, ← List.map_map, List.map_snd_zip (by simp [h1, h2]), List.map_snd_zip (by omega)]

theorem many_len {a : Many} (ok : ManyOk a) : (a.inembed.getD a.n).length = a.n.length ∧ (a.onembed.getD a.n).length = a.n.length := by
  constructor
  · cases h : a.inembed with
    | none => rfl
    | some e => exact (ok.inembed e h).1
  · cases h : a.onembed with
    | none => rfl
    | some e => exact (ok.onembed e h).1

theorem many_same' {a : Many} (ok : (a.inembed.getD a.n).length = a.n.length ∧ (a.onembed.getD a.n).length = a.n.length) : (manyL a).batch.Same (manyB a) := by
  obtain ⟨l1, l2⟩ := ok
  obtain ⟨z1, z2, z3⟩ := zip3 l1 l2
  have hn : (manyL a).batch.n = a.n.map (·.toNat) := by
    simp only [Layout.batch, guruBatch, manyL, rmDims_n]
    conv_rhs => rw [← z1, List.map_map]
    rfl
  have hl : (a.n.zip ((a.inembed.getD a.n).zip (a.onembed.getD a.n))).length = a.n.length := by
    have := congrArg List.length z1; simpa using this
  refine ⟨hn, rfl, ?_, ?_⟩
  · intro b j hb hj
    have hj' : j.length = (a.n.zip ((a.inembed.getD a.n).zip (a.onembed.getD a.n))).length := by rw [box_length hj, hn, hl]; simp
    have : Box [a.howmany.toNat] b := hb
    obtain ⟨x, xs, _, h0, rfl⟩ := box_cons.1 this
    obtain rfl := box_nil.1 h0
    simp only [guruBatch, manyL, manyBatch, rmDims_is _ _ _ _ hj', z2]
    simp [dot, mul_comm]
  · intro b j hb hj
    have hj' : j.length = (a.n.zip ((a.inembed.getD a.n).zip (a.onembed.getD a.n))).length := by rw [box_length hj, hn, hl]; simp
    have : Box [a.howmany.toNat] b := hb
    obtain ⟨x, xs, _, h0, rfl⟩ := box_cons.1 this
    obtain rfl := box_nil.1 h0
    simp only [guruBatch, manyL, manyBatch, rmDims_os _ _ _ _ hj', z3]
    simp [dot, mul_comm]

theorem many_same {a : Many} (ok : ManyOk a) : (manyL a).batch.Same (manyB a) := many_same' (many_len ok)

theorem many_core (env : Env) (hs : ∀ d ∈ env.slvdescs, d.slv.Sound) {n : ℕ} {tl : ℝ} {flags : U32} {a : Many} {st0 st0' : PSt} {ap : ApiPlan}
    (h : planManyDft env n tl flags a st0 = .ok (some ap, st0')) (ok : ManyOk a)
    (ho : (manyB a).OutInj) (hi : ¬ Preserves flags → (manyB a).InInj) (hsep : Separate (manyB a) a.inp a.out)
    {inp' out' : Ptr} {st : State} (hf : Fits (manyB a) a.inp a.out inp' out' st) :
    DoesDft (expSign a.sign) (manyB a) (¬ Preserves flags) inp' out' st (executeDft ap inp' out' st) ∧
      execute ap = executeDft ap a.inp a.out := by
  have hS := many_same ok
  have hpn : ∀ p, manyDftProblem a = some (some p) → ∀ x ∈ a.n, 0 < x := by
    intro p hp
    unfold manyDftProblem at hp
    split at hp
    · simp at hp
    rename_i hk
    have := (Props.C39_kosher a.n a.howmany).1 (by simpa using hk)
    exact fun x hx => this.2 x hx
  have key := interleaved_api (L := manyL a) env hs h (inp := a.inp) (out := a.out) ?_ ?_ (Same.OutInj hS.symm ho) (fun h => Same.InInj hS.symm (hi h))
    (Same.Separate hS.symm hsep) hf.kind (Same.Separate hS.symm hf.sep) hf.inpOk hf.outOk
  · refine ⟨⟨Same.Dfts hS key.1.1, ?_⟩, key.2⟩
    have := key.1.2
    rw [show (manyL a).Out = _ from Same.Out hS, show (manyL a).Inp = _ from Same.Inp hS] at this
    exact this
  · intro p hp
    have hpos := hpn p hp
    unfold manyDftProblem at hp
    split at hp
    · simp at hp
    simp only [Option.bind_eq_bind, Option.pure_def] at hp
    obtain ⟨is, his, hp⟩ := Option.bind_eq_some_iff.1 hp
    obtain ⟨os, hos, hp⟩ := Option.bind_eq_some_iff.1 hp
    obtain ⟨sz, hsz, hp⟩ := Option.bind_eq_some_iff.1 hp
    obtain ⟨id, hid, hp⟩ := Option.bind_eq_some_iff.1 hp
    obtain ⟨od, hod, hp⟩ := Option.bind_eq_some_iff.1 hp
    obtain rfl := Option.some.inj (Option.some.inj hp)
    have hsz' := (rowmajor_eq _ _ _ _ hsz).1
    rw [int32_eq his, int32_eq hos, rmDims_scale] at hsz'
    rw [hsz', int32_eq hid, int32_eq hod]
    refine ⟨rfl, ?_⟩
    intro d hd
    have : d.n ∈ (rmDims (a.n.zip ((a.inembed.getD a.n).zip (a.onembed.getD a.n))) a.istride a.ostride).map (·.n) := List.mem_map_of_mem hd
    rw [rmDims_n] at this
    obtain ⟨e, he, h0⟩ := List.mem_map.1 this
    have h1 := hpos e.1 (by
      have := (List.of_mem_zip (a := e.1) (b := e.2) he).1
      exact this)
    omega
  · intro d hd
    rcases hd with hd | hd
    · refine rmDims_nonneg _ ok.strides.1 ok.strides.2.2.1 ?_ d hd
      intro e he
      obtain ⟨he1, he2⟩ := List.of_mem_zip (a := e.1) (b := e.2) he
      obtain ⟨he3, he4⟩ := List.of_mem_zip (a := e.2.1) (b := e.2.2) he2
      obtain ⟨p, _, hp, _⟩ := planWith_some h
      have hpos := hpn p hp
      constructor
      · cases hh : a.inembed with
        | none => rw [hh] at he3; exact (hpos _ he3).le
        | some e' => rw [hh] at he3; exact (ok.inembed e' hh).2 _ he3
      · cases hh : a.onembed with
        | none => rw [hh] at he4; exact (hpos _ he4).le
        | some e' => rw [hh] at he4; exact (ok.onembed e' hh).2 _ he4
    · have : d = ⟨a.howmany.toNat, a.idist, a.odist⟩ := List.mem_singleton.1 hd
      subst this
      exact ⟨ok.strides.2.1, ok.strides.2.2.2⟩

/-- **C01** (with C02 and C03), advanced interface: transform `b` reads its element `j` at `b*idist + istride * rowMajor inembed j` and
writes its element `k` at `b*odist + ostride * rowMajor onembed k`; the output is the DFT of the input, whatever solvers the planner
chose and whatever wisdom it used; nothing else changes -/
theorem C01_many_dft (env : Env) (hs : ∀ d ∈ env.slvdescs, d.slv.Sound) {n : ℕ} {tl : ℝ} {flags : U32} {a : Many} {st0 st0' : PSt} {ap : ApiPlan}
    (h : planManyDft env n tl flags a st0 = .ok (some ap, st0')) (ok : ManyOk a)
    (ho : (manyB a).OutInj) (hi : ¬ Preserves flags → (manyB a).InInj) (hsep : Separate (manyB a) a.inp a.out)
    (st : State) (hbi : a.inp.blk < st.next) (hbo : a.out.blk < st.next) :
    DoesDft (expSign a.sign) (manyB a) (¬ Preserves flags) a.inp a.out st (execute ap st) := by
  obtain ⟨h1, h2⟩ := many_core env hs h ok ho hi hsep (inp' := a.inp) (out' := a.out) (st := st) ⟨Iff.rfl, hsep, hbi, hbo⟩
  rw [h2]; exact h1

/-- **C05**, advanced and basic interface -/
theorem C05_many_execute_dft (env : Env) (hs : ∀ d ∈ env.slvdescs, d.slv.Sound) {n : ℕ} {tl : ℝ} {flags : U32} {a : Many} {st0 st0' : PSt} {ap : ApiPlan}
    (h : planManyDft env n tl flags a st0 = .ok (some ap, st0')) (ok : ManyOk a)
    (ho : (manyB a).OutInj) (hi : ¬ Preserves flags → (manyB a).InInj) (hsep : Separate (manyB a) a.inp a.out)
    {inp' out' : Ptr} {st : State} (hf : Fits (manyB a) a.inp a.out inp' out' st) :
    DoesDft (expSign a.sign) (manyB a) (¬ Preserves flags) inp' out' st (executeDft ap inp' out' st) :=
  (many_core env hs h ok ho hi hsep hf).1

/-- row-major positions are distinct -/
theorem rowMajor_inj {n : List ℕ} (hn : ∀ x ∈ n, 0 < x) : ∀ {j k : List ℕ}, Box n j → Box n k →
    rowMajor (n.map fun x : ℕ => (x : ℤ)) j = rowMajor (n.map fun x : ℕ => (x : ℤ)) k → j = k := by
  have bound : ∀ {n : List ℕ} (hn : ∀ x ∈ n, 0 < x) {j : List ℕ}, Box n j → 0 ≤ rowMajor (n.map fun x : ℕ => (x : ℤ)) j ∧
      rowMajor (n.map fun x : ℕ => (x : ℤ)) j < (n.map fun x : ℕ => (x : ℤ)).prod := by
    intro n
    induction n with
    | nil => intro _ j hj; obtain rfl := box_nil.1 hj; simp [rowMajor]
    | cons n ns ih =>
      intro hn j hj
      obtain ⟨i, is, h1, h2, rfl⟩ := box_cons.1 hj
      obtain ⟨i1, i2⟩ := ih (fun x hx => hn x (by simp [hx])) h2
      rw [List.map_cons, rowMajor_cons _ _ _ _ (by simp [box_length h2]), List.prod_cons]
      set P := (ns.map fun x : ℕ => (x : ℤ)).prod
      have hP : 0 ≤ P := by omega
      have : (i : ℤ) + 1 ≤ n := by omega
      constructor
      · positivity
      · nlinarith
  induction n with
  | nil => intro j k hj hk _; rw [box_nil.1 hj, box_nil.1 hk]
  | cons n ns ih =>
    intro j k hj hk he
    obtain ⟨i, is, h1, h2, rfl⟩ := box_cons.1 hj
    obtain ⟨i', is', h1', h2', rfl⟩ := box_cons.1 hk
    have hn' := fun x hx => hn x (List.mem_cons_of_mem n hx)
    rw [List.map_cons, rowMajor_cons _ _ _ _ (by simp [box_length h2]), rowMajor_cons _ _ _ _ (by simp [box_length h2'])] at he
    obtain ⟨b1, b2⟩ := bound hn' h2
    obtain ⟨b1', b2'⟩ := bound hn' h2'
    set P := (ns.map fun x : ℕ => (x : ℤ)).prod
    have hii : (i : ℤ) = i' := by
      rcases lt_trichotomy (i : ℤ) i' with h | h | h
      · nlinarith
      · exact h
      · nlinarith
    rw [hii] at he
    have : i = i' := by exact_mod_cast hii
    subst this
    rw [ih hn' h2 h2' (by linarith)]

/-- the batch of the basic interface: one contiguous row-major array -/
abbrev basicB (sizes : List Int) : Batch := manyBatch (sizes.map (·.toNat)) 1 sizes 1 1 sizes 1 1

theorem basic_inj {sizes : List Int} (hp : ∀ x ∈ sizes, 0 < x) : (basicB sizes).OutInj ∧ (basicB sizes).InInj := by
  have e : (sizes.map (·.toNat)).map (fun x : ℕ => (x : ℤ)) = sizes := by
    rw [List.map_map]
    conv_rhs => rw [← List.map_id sizes]
    refine List.map_congr_left fun x hx => ?_
    have := hp x hx
    simp; omega
  have hn : ∀ x ∈ sizes.map (·.toNat), 0 < x := by
    intro x hx; obtain ⟨y, hy, rfl⟩ := List.mem_map.1 hx; have := hp y hy; omega
  have key : ∀ b k b' k', Box [1] b → Box (sizes.map (·.toNat)) k → Box [1] b' → Box (sizes.map (·.toNat)) k' →
      ((b.headD 0 : ℕ) : ℤ) * 1 + 1 * rowMajor sizes k = ((b'.headD 0 : ℕ) : ℤ) * 1 + 1 * rowMajor sizes k' → b = b' ∧ k = k' := by
    intro b k b' k' hb hk hb' hk' he
    obtain ⟨x, xs, hx, h0, rfl⟩ := box_cons.1 hb
    obtain rfl := box_nil.1 h0
    obtain ⟨x', xs', hx', h0, rfl⟩ := box_cons.1 hb'
    obtain rfl := box_nil.1 h0
    obtain rfl : x = 0 := by omega
    obtain rfl : x' = 0 := by omega
    refine ⟨rfl, rowMajor_inj hn hk hk' ?_⟩
    rw [e]; simpa using he
  exact ⟨key, key⟩

/-- **C01** (with C02, C03, C05), basic interface `fftw_plan_dft`, `fftw_plan_dft_1d`, …: the only promise needed is that the arrays are the
same or do not overlap -/
theorem C01_plan_dft (env : Env) (hs : ∀ d ∈ env.slvdescs, d.slv.Sound) {n : ℕ} {tl : ℝ} {flags : U32} {sizes : List Int} {inp out : Ptr} {sign : Int}
    {st0 st0' : PSt} {ap : ApiPlan} (h : planDft env n tl flags sizes inp out sign st0 = .ok (some ap, st0')) (hsep : Separate (basicB sizes) inp out)
    {inp' out' : Ptr} {st : State} (hf : Fits (basicB sizes) inp out inp' out' st) :
    DoesDft (expSign sign) (basicB sizes) (¬ Preserves flags) inp' out' st (executeDft ap inp' out' st) ∧ execute ap = executeDft ap inp out := by
  have ok : ManyOk ⟨sizes, 1, inp, none, 1, 1, out, none, 1, 1, sign⟩ := ⟨by simp, by simp, by simp⟩
  obtain ⟨p, _, hp, _⟩ := planWith_some h
  have hpos : ∀ x ∈ sizes, 0 < x := by
    unfold manyDftProblem at hp
    split at hp
    · simp at hp
    rename_i hk
    have := (Props.C39_kosher sizes 1).1 (by simpa using hk)
    exact fun x hx => this.2 x hx
  obtain ⟨i1, i2⟩ := basic_inj hpos
  exact many_core env hs h ok i1 (fun _ => i2) hsep hf

/-! ### C02, C03 -/

/-- **C02**: execution changes nothing but output elements, and input elements if the user allowed that -/
theorem C02_writes_only_user_arrays (env : Env) (hs : ∀ d ∈ env.slvdescs, d.slv.Sound) {n : ℕ} {tl : ℝ} {flags : U32} {a : Many} {st0 st0' : PSt} {ap : ApiPlan}
    (h : planManyDft env n tl flags a st0 = .ok (some ap, st0')) (ok : ManyOk a)
    (ho : (manyB a).OutInj) (hi : ¬ Preserves flags → (manyB a).InInj) (hsep : Separate (manyB a) a.inp a.out)
    (st : State) (hbi : a.inp.blk < st.next) (hbo : a.out.blk < st.next) (q : Ptr) (hq : q.blk < st.next)
    (hq1 : ¬ CMem a.out (manyB a).Out q) (hq2 : ¬ CMem a.inp (manyB a).Inp q) : (execute ap st).mem q = st.mem q :=
  (C01_many_dft env hs h ok ho hi hsep st hbi hbo).2.mem q hq (by tauto)

/-- **C03**: a plan made without FFTW_DESTROY_INPUT, or with FFTW_PRESERVE_INPUT, leaves the input of an out-of-place transform alone -/
theorem C03_preserve_input (env : Env) (hs : ∀ d ∈ env.slvdescs, d.slv.Sound) {n : ℕ} {tl : ℝ} {flags : U32} {a : Many} {st0 st0' : PSt} {ap : ApiPlan}
    (h : planManyDft env n tl flags a st0 = .ok (some ap, st0')) (ok : ManyOk a)
    (ho : (manyB a).OutInj) (hsep : Separate (manyB a) a.inp a.out) (hne : a.inp ≠ a.out) (hp : Preserves flags)
    (st : State) (hbi : a.inp.blk < st.next) (hbo : a.out.blk < st.next) (x : ℤ) (hx : (manyB a).Inp x) :
    celt (execute ap st).mem a.inp x = celt st.mem a.inp x := by
  have hW := (C01_many_dft env hs h ok ho (fun h => absurd hp h) hsep st hbi hbo).2
  have key : ∀ q, CMem a.inp (manyB a).Inp q → (execute ap st).mem q = st.mem q := by
    intro q hq
    have hqb : q.blk < st.next := by obtain ⟨y, _, rfl | rfl⟩ := hq <;> exact hbi
    refine hW.mem q hqb ?_
    rintro (h1 | ⟨h1, _⟩)
    · rcases hsep with h2 | h2
      · exact hne h2
      · exact h2 q hq h1
    · exact h1 hp
  unfold celt
  rw [key _ ⟨x, hx, Or.inl rfl⟩, key _ ⟨x, hx, Or.inr rfl⟩]

/-! ### C06 -/

/-- **C06**: backward after forward multiplies by the size.  `B` is the forward batch, `B'` the backward one, which reads where `B` wrote;
`g0`, `g1`, `g2` are the input, the intermediate array and the result. -/
theorem C06_backward_inverts {B B' : Batch} (hn : B'.n = B.n) (hv : B'.v = B.v) (hpos : ∀ b j, Box B.v b → Box B.n j → B'.inp b j = B.out b j)
    {g0 g1 g2 : ℤ → ℂ} (h1 : Dfts (-1) B g0 g1) (h2 : Dfts 1 B' g1 g2) (b j : List ℕ) (hb : Box B.v b) (hj : Box B.n j) :
    g2 (B'.out b j) = (B.n.prod : ℂ) * g0 (B.inp b j) := by
  rw [h2 b j (hv ▸ hb) (hn ▸ hj), hn, ← inversion B.n (fun j => g0 (B.inp b j)) j hj]
  exact sumBox_congr fun k hk => by rw [hpos b k hb hk, h1 b k hb hk]

/-- **C06** at the API, basic interface: a forward plan from `x` to `y` followed by a backward plan from `y` to `z` (all three pairwise the same or
not overlapping) leaves in `z` the old contents of `x` times the logical size -/
theorem C06_roundtrip (env : Env) (hs : ∀ d ∈ env.slvdescs, d.slv.Sound) {n n' : ℕ} {tl tl' : ℝ} {flags flags' : U32} {sizes : List Int} {x y z : Ptr}
    {st0 st1 st2 st3 : PSt} {f g : ApiPlan} (hf : planDft env n tl flags sizes x y (-1) st0 = .ok (some f, st1))
    (hg : planDft env n' tl' flags' sizes y z 1 st2 = .ok (some g, st3)) (hxy : Separate (basicB sizes) x y) (hyz : Separate (basicB sizes) y z)
    (st : State) (hx : x.blk < st.next) (hy : y.blk < st.next) (hz : z.blk < st.next)
    (j : List ℕ) (hj : Box (sizes.map (·.toNat)) j) :
    celt (execute g (execute f st)).mem z (rowMajor sizes j) = ((sizes.map (·.toNat)).prod : ℂ) * celt st.mem x (rowMajor sizes j) := by
  obtain ⟨h1, e1⟩ := C01_plan_dft env hs hf hxy (st := st) ⟨Iff.rfl, hxy, hx, hy⟩
  rw [← e1] at h1
  have hnext := h1.2.next
  obtain ⟨h2, e2⟩ := C01_plan_dft env hs hg hyz (st := execute f st) ⟨Iff.rfl, hyz, by omega, by omega⟩
  rw [← e2] at h2
  have := C06_backward_inverts (B := basicB sizes) (B' := basicB sizes) rfl rfl (fun _ _ _ _ => rfl) h1.1 h2.1 [0] j
    (box_cons.2 ⟨0, [], by norm_num, box_nil.2 rfl, rfl⟩) hj
  simpa [manyBatch, Function.comp_def] using this

end FFTW.Api
