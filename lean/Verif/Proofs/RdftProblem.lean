import Verif.Proofs.DftSolvers
import Verif.Model.RdftSolvers

namespace FFTW.RdftS
open Tensor Spec DftS Copy
variable [CLib]

omit [CLib] in
/-- real problems have one component per element -/
theorem pairs_locT_real {τ : Type} (δi δo : ℤ) (sz : List (Dim × τ)) (vec : Tensor) :
    pairs (locT ℝ δi δo sz vec) = pairs (append (some (sz.map Prod.fst)) vec) := by
  cases vec with
  | none => rfl
  | some l => rw [locT_some]; exact pairs_cons_one rfl _
omit [CLib] in
theorem ins_locT_real {τ : Type} (δi δo : ℤ) (sz : List (Dim × τ)) (vec : Tensor) :
    ins (locT ℝ δi δo sz vec) = ins (append (some (sz.map Prod.fst)) vec) := by rw [ins_eq, ins_eq, pairs_locT_real]
omit [CLib] in
theorem outs_locT_real {τ : Type} (δi δo : ℤ) (sz : List (Dim × τ)) (vec : Tensor) :
    outs (locT ℝ δi δo sz vec) = outs (append (some (sz.map Prod.fst)) vec) := by rw [outs_eq, outs_eq, pairs_locT_real]

theorem exchange_perm (l : List (Dim × RKind)) : ∀ a, ((exchange a l).1 :: (exchange a l).2).Perm (a :: l) := by
  induction l with
  | nil => intro a; exact List.Perm.refl _
  | cons b l ih =>
    intro a
    unfold exchange
    split
    · exact (List.Perm.swap _ _ _).trans ((ih b).cons a)
    · exact (List.Perm.swap _ _ _).trans (((ih a).cons b).trans (List.Perm.swap _ _ _))

theorem exchangeSort_perm (l : List (Dim × RKind)) : (exchangeSort l).Perm l := by
  induction h : l.length generalizing l with
  | zero => rw [List.length_eq_zero_iff.1 h]; simp [exchangeSort]
  | succ n ih =>
    cases l with
    | nil => simp at h
    | cons a l =>
      rw [exchangeSort]
      have hl : (exchange a l).2.length = n := by rw [exchange_length]; simpa using h
      exact ((ih _ hl).cons _).trans (exchange_perm l a)

omit [CLib] in
theorem kind2_fst (e : Dim × RKind) : (kind2 e).1 = e.1 := by unfold kind2; split <;> rfl

omit [CLib] in
/-- transforms of size 1 that are dropped do nothing -/
theorem trivial_kernel {e : Dim × RKind} (h : nontrivial e = false) : e.1.n ≤ 1 ∧ rK e.2 1 0 0 = 1 := by
  obtain ⟨d, t⟩ := e
  constructor
  · simp only [nontrivial, Bool.or_eq_false_iff, decide_eq_false_iff_not] at h
    have := h.1.1.1; simp only at this ⊢; omega
  · cases t <;> simp_all [nontrivial, RKind.reodft, rK, r2hcK, hc2rK]

open Real in
omit [CLib] in
theorem kernel2 {e : Dim × RKind} {j k : ℕ} (hj : j < e.1.n) (hk : k < e.1.n) : rK (kind2 e).2 e.1.n j k = rK e.2 e.1.n j k := by
  unfold kind2
  split
  rotate_left
  · rfl
  rename_i h
  obtain ⟨h2, ht⟩ := h
  rw [h2] at hj hk ⊢
  have h1 : 2 * π / 2 = π := by ring
  rcases ht with h | h | h <;> rw [h] <;> interval_cases j <;> interval_cases k <;> simp [rK, r2hcK, hc2rK, h1]

omit [CLib] in
theorem gSum_kind2 (dk : List ((Dim × RKind) × ℕ)) (h : ∀ e ∈ dk, e.2 < e.1.1.n) :
    ∀ x, gSum rK (dk.map fun e => (kind2 e.1, e.2)) x = gSum rK dk x := by
  induction dk with
  | nil => intro x; rfl
  | cons e dk ih =>
    intro x
    obtain ⟨⟨d, t⟩, k⟩ := e
    have hk : k < d.n := h ((d, t), k) (by simp)
    have e1 : (kind2 (d, t)).1 = d := kind2_fst _
    rw [List.map_cons]
    have : kind2 (d, t) = (d, (kind2 (d, t)).2) := Prod.ext e1 rfl
    rw [this]
    simp only [gSum]
    refine Finset.sum_congr rfl fun j hj => ?_
    rw [ih (fun e he => h e (by simp [he]))]
    have := kernel2 (e := (d, t)) (Finset.mem_range.1 hj) hk
    rw [this]

omit [CLib] in
theorem gOut_kind2 (dk : List ((Dim × RKind) × ℕ)) : gOut (dk.map fun e => (kind2 e.1, e.2)) = gOut dk := by
  simp [gOut, List.map_map, Function.comp_def, kind2_fst]

/-- all extents positive -/
def PosK (sz : List (Dim × RKind)) : Prop := ∀ e ∈ sz, 0 < e.1.n

omit [CLib] in
theorem PosK.sub {l l' : List (Dim × RKind)} (h : PosK l) (hs : ∀ e ∈ l', e ∈ l) : PosK l' := fun e he => h e (hs e he)

/-- the dimensions `X(mkproblem_rdft)` stores -/
def szRdft (sz : List (Dim × RKind)) : List (Dim × RKind) := (exchangeSort (sz.filter nontrivial)).map kind2

/-- nontrivial, or not of size 1 -/
def keep (e : Dim × RKind) : Bool := nontrivial e || decide (e.1.n ≠ 1)

omit [CLib] in
theorem filter_nontrivial {sz : List (Dim × RKind)} (h : PosK sz) : sz.filter nontrivial = sz.filter keep := by
  apply List.filter_congr
  intro e he
  unfold keep
  cases hn : nontrivial e with
  | true => simp
  | false =>
    have := (trivial_kernel hn).1
    have := h e he
    have : e.1.n = 1 := by omega
    simp [this]

omit [CLib] in
theorem keep_false {e : Dim × RKind} (h : keep e = false) : e.1.n = 1 ∧ rK e.2 1 0 0 = 1 := by
  simp only [keep, Bool.or_eq_false_iff, decide_eq_false_iff_not, not_not] at h
  exact ⟨h.2, (trivial_kernel h.1).2⟩

omit [CLib] in
theorem pairs_filter_keep (sz : List (Dim × RKind)) : pairs (some ((sz.filter keep).map Prod.fst)) = pairs (some (sz.map Prod.fst)) := by
  induction sz with
  | nil => rfl
  | cons e sz ih =>
    by_cases h : keep e = true
    · rw [List.filter_cons_of_pos h, List.map_cons, List.map_cons]
      exact pairs_cons_congr _ ih
    · rw [List.filter_cons_of_neg h, List.map_cons, ih, pairs_cons_one (keep_false (by simpa using h)).1]

theorem szRdft_fst_perm (sz : List (Dim × RKind)) : ((szRdft sz).map Prod.fst).Perm ((sz.filter nontrivial).map Prod.fst) := by
  have : (szRdft sz).map Prod.fst = (exchangeSort (sz.filter nontrivial)).map Prod.fst := by
    unfold szRdft
    rw [List.map_map]
    exact List.map_congr_left fun e _ => kind2_fst e
  rw [this]
  exact (exchangeSort_perm _).map _

theorem pairs_szRdft {sz : List (Dim × RKind)} (h : PosK sz) : pairs (some ((szRdft sz).map Prod.fst)) = pairs (some (sz.map Prod.fst)) := by
  rw [pairs_perm (szRdft_fst_perm sz), filter_nontrivial h, pairs_filter_keep]

omit [CLib] in
theorem pairs_append_congr {a a' : List Dim} {v v' : Tensor} (h : pairs (some a) = pairs (some a')) (h' : pairs v = pairs v') :
    pairs (append (some a) v) = pairs (append (some a') v') := by
  have key : ∀ (l : List Dim) (b : Tensor), pairs (append (some l) b) = (pairs (some l)).bind fun x => (pairs b).map fun y => x + y := by
    intro l b
    cases b with
    | none => simp only [append, pairs, Multiset.map_zero, Multiset.bind_zero]
    | some b => exact pairs_append l b
  rw [key, key, h, h']

theorem posK_szRdft {sz : List (Dim × RKind)} (h : PosK sz) : PosK (szRdft sz) := by
  intro e he
  have : e.1 ∈ (szRdft sz).map Prod.fst := List.mem_map.2 ⟨e, he, rfl⟩
  have := (szRdft_fst_perm sz).mem_iff.1 this
  obtain ⟨e', he', hh⟩ := List.mem_map.1 this
  rw [← hh]
  exact h e' (List.mem_of_mem_filter he')

/-- equal input and output strides -/
def Same (T : Tensor) : Prop := ∀ l, T = some l → ∀ d ∈ l, d.n ≠ 1 → d.is = d.os

omit [CLib] in
theorem mergeLoop_same (rest : List Dim) : ∀ cur prev : Dim, cur.is = cur.os → (∀ d ∈ rest, d.is = d.os) → ∀ d ∈ mergeLoop cur prev rest, d.is = d.os := by
  induction rest with
  | nil => intro cur prev h _ d hd; simp only [mergeLoop, List.mem_singleton] at hd; rw [hd]; exact h
  | cons b rest ih =>
    intro cur prev h hr d hd
    have hb := hr b (by simp)
    have hr' : ∀ d ∈ rest, d.is = d.os := fun d hd => hr d (by simp [hd])
    rw [mergeLoop] at hd
    split at hd
    · exact ih ⟨cur.n * b.n, b.is, b.os⟩ b hb hr' d hd
    · rcases List.mem_cons.1 hd with rfl | hd
      · exact h
      · exact ih _ _ hb hr' d hd

theorem compressContiguous_same {vec : Tensor} (hs : Same vec) : ∀ l, compressContiguous vec = some l → ∀ d ∈ l, d.is = d.os := by
  intro l h
  cases vec with
  | none => simp [compressContiguous] at h
  | some l0 =>
    have hs := hs l0 rfl
    unfold compressContiguous at h
    simp only at h
    split at h
    · simp at h
    · have hp1 : ∀ d ∈ reallyCompress l0, d.is = d.os := fun d hd => hs d (List.mem_of_mem_filter hd) (by
        have := (List.mem_filter.1 hd).2; simpa using this)
      split at h
      · obtain rfl := Option.some.inj h
        exact hp1
      · have hp := CLib.perm compareByIstride (reallyCompress l0)
        split at h
        · obtain rfl := Option.some.inj h; simp
        · rename_i a rest hq
          obtain rfl := Option.some.inj h
          rw [hq] at hp
          have h2 : ∀ d ∈ a :: rest, d.is = d.os := fun d hd => hp1 d (hp.mem_iff.1 hd)
          intro d hd
          exact mergeLoop_same rest a a (h2 a (by simp)) (fun d hd => h2 d (by simp [hd])) d ((canonicalize_perm _).mem_iff.1 hd)

/-- an in-place trigonometric problem (before canonicalisation) is not transposed -/
def NoTr (sz : List (Dim × RKind)) (vec : Tensor) (I O : Ptr) : Prop :=
  I = O → ins (append (some (sz.map Prod.fst)) vec) = outs (append (some (sz.map Prod.fst)) vec) → (∃ e ∈ sz, e.2.reodft = true) →
    compressContiguous vec ≠ none → (∀ e ∈ sz, e.1.n ≠ 1 → e.1.is = e.1.os) ∧ Same vec

theorem notTransposed_mk {sz : List (Dim × RKind)} {vec : Tensor} {I O : Ptr} (h : NoTr sz vec I O)
    (hi : I = O → ins (append (some (sz.map Prod.fst)) vec) = outs (append (some (sz.map Prod.fst)) vec)) :
    NotTransposed { sz := szRdft sz, vecsz := compressContiguous vec, I, O } := by
  intro he ⟨e, hs, ht⟩ l hl
  obtain ⟨e0, he0, hk⟩ := List.mem_map.1 hs
  have he1 : e0 ∈ sz := List.mem_of_mem_filter ((exchangeSort_perm _).mem_iff.1 he0)
  have ht0 : e0.2.reodft = true := by
    rw [← hk] at ht
    unfold kind2 at ht
    split at ht
    · simp [RKind.reodft] at ht
    · exact ht
  obtain ⟨h1, h2⟩ := h he (hi he) ⟨e0, he1, ht0⟩ (by rw [show compressContiguous vec = some l from hl]; simp)
  refine ⟨?_, compressContiguous_same h2 l hl⟩
  intro x hx
  have : x.1 ∈ (szRdft sz).map Prod.fst := List.mem_map.2 ⟨x, hx, rfl⟩
  have := (szRdft_fst_perm sz).mem_iff.1 this
  obtain ⟨e', he', hh⟩ := List.mem_map.1 this
  rw [← hh]
  exact h1 e' (List.mem_of_mem_filter he')

theorem kosher_mkproblemRdft {sz : List (Dim × RKind)} {vec : Tensor} {I O : Ptr} (h0 : PosK sz)
    (ha : I ≠ O → Apart (append (some (sz.map Prod.fst)) vec) I O) (hs : NoTr sz vec I O := by intro _ _ ⟨e, he, ht⟩ _; first | (simp at he; done) | (simp at he; subst he; simp [RKind.reodft] at ht)) :
    Kosher (mkproblemRdft sz vec I O) := by
  have hp : pairs (append (some ((szRdft sz).map Prod.fst)) (compressContiguous vec)) = pairs (append (some (sz.map Prod.fst)) vec) :=
    pairs_append_congr (pairs_szRdft h0) (pairs_compressContiguous _)
  unfold mkproblemRdft
  split
  · trivial
  · rename_i hc
    have hin : I = O → ins (append (some (sz.map Prod.fst)) vec) = outs (append (some (sz.map Prod.fst)) vec) := by
      intro he
      push Not at hc
      have hc' := hc he
      exact inplaceLocations_sound (by simpa using hc')
    refine ⟨⟨?_, ?_, posK_szRdft h0, ?_⟩, notTransposed_mk hs hin⟩
    · intro he
      have := hin he
      change ins (append (some ((szRdft sz).map Prod.fst)) (compressContiguous vec)) = outs (append (some ((szRdft sz).map Prod.fst)) (compressContiguous vec))
      rw [ins_eq, outs_eq, hp, ← ins_eq, ← outs_eq]; exact this
    · intro hne
      exact (ha hne).of_pairs hp
    · intro l hl
      exact compressContiguous_big hl

/-- what a plan for `X(mkproblem_rdft)(sz, vecsz, ...)` does, in terms of the tensors before canonicalisation -/
theorem sound_mkproblemRdft {nd : Bool} {sz : List (Dim × RKind)} {vec : Tensor} {I O : Ptr} {c : Plan} (h0 : PosK sz)
    (h : Sound nd (mkproblemRdft sz vec I O) c) :
    GOK rK sz vec 0 0 (decide (I = O)) nd c.rdftApply ∧
    (I = O → ins (locT ℝ 0 0 sz vec) = outs (locT ℝ 0 0 sz vec)) := by
  unfold mkproblemRdft at h
  split at h
  · exact absurd h (by cases c <;> exact id)
  · rename_i hc
    constructor
    · cases c with
      | dft f => exact absurd h id
      | rdft2 f => exact absurd h id
      | rdft f =>
        simp only [Sound] at h
        refine h.toInpl.transfer (pairs_compressContiguous _).symm (pairs_szRdft h0).symm ?_
        intro dk hdk
        have hf := hdk.filter (K := rK) keep (fun e he => keep_false he)
        have hperm : (sz.filter keep).Perm (exchangeSort (sz.filter nontrivial)) := by
          rw [← filter_nontrivial h0]; exact (exchangeSort_perm _).symm
        obtain ⟨dk', p, i⟩ := hf.1.perm hperm
        refine ⟨dk'.map fun e => (kind2 e.1, e.2), ⟨?_, ?_⟩, ?_, ?_⟩
        · rw [← i.1, List.map_map, List.map_map]; rfl
        · intro e he
          obtain ⟨e', he', rfl⟩ := List.mem_map.1 he
          simp only [kind2_fst]
          exact i.2 e' he'
        · rw [gOut_kind2, ← gOut_perm p, hf.2.1]
        · intro x; rw [gSum_kind2 _ i.2, ← gSum_perm p, hf.2.2]
    · rintro rfl
      push Not at hc
      have h3 := hc rfl
      rw [ins_locT_real, outs_locT_real]
      exact inplaceLocations_sound (by simpa using h3)

theorem rdftSolver_sound {mk : RdftP → Flags → Mk (Option Plan)}
    (h : ∀ p fl, Kosher (.rdft p) → (mk p fl).Good fl fun r => ∀ pl, r = some pl → FFTW.Sound fl.nd (.rdft p) pl) :
    (rdftSolver mk).Sound := by
  intro p fl hk
  cases p with
  | rdft p => exact h p fl hk
  | dft p => intro pl hpl; simp at hpl
  | rdft2 p => intro pl hpl; simp at hpl
  | rdft2s p => intro pl hpl; simp at hpl
  | unsolvable => intro pl hpl; simp at hpl

/-- consequences of kosherness for a real problem -/
theorem kosher_rdft {p : RdftP} (h : Kosher (.rdft p)) :
    PosK p.sz ∧ (p.I ≠ p.O → Apart (append (some (p.sz.map Prod.fst)) p.vecsz) p.I p.O) ∧ (∀ l, p.vecsz = some l → Pos l) ∧
    (decide (p.I = p.O) = true → ins (locT ℝ 0 0 p.sz p.vecsz) = outs (locT ℝ 0 0 p.sz p.vecsz)) := by
  obtain ⟨⟨h1, ha, h2, h3⟩, -⟩ := h
  refine ⟨h2, ha, fun l hl d hd => Nat.lt_of_succ_lt (h3 l hl d hd), fun he => ?_⟩
  rw [ins_locT_real, outs_locT_real]
  exact h1 (of_decide_eq_true he)

theorem apart_real {τ : Type} {sz : List (Dim × τ)} {vec : Tensor} {I O : Ptr} :
    Apart (locT ℝ 0 0 sz vec) I O ↔ Apart (append (some (sz.map Prod.fst)) vec) I O := by
  unfold Apart; rw [ins_locT_real, outs_locT_real]

end FFTW.RdftS
