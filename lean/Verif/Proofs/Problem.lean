import Verif.Spec.Sound
import Verif.Proofs.GenSeq

namespace FFTW
open Tensor Spec

theorem Mk.Good.bind {α β : Type} {fl : Flags} {Q : α → Prop} {R : β → Prop} {t : Mk α} {g : α → Mk β}
    (h : t.Good fl Q) (hg : ∀ a, Q a → (g a).Good fl R) : (t.bind g).Good fl R := by
  induction t with
  | ret a => exact hg a h
  | plan p m k ih => exact ⟨h.1, fun r hr => ih r (h.2 r hr)⟩

theorem Mk.Good.mono {α : Type} {fl : Flags} {Q R : α → Prop} {t : Mk α} (h : t.Good fl Q) (hg : ∀ a, Q a → R a) : t.Good fl R := by
  induction t with
  | ret a => exact hg a h
  | plan p m k ih => exact ⟨h.1, fun r hr => ih r (h.2 r hr)⟩

theorem Mk.Good.need {α : Type} {fl : Flags} {Q : Option α → Prop} {p : Problem} {m : FMod} {k : Plan → Mk (Option α)}
    (hp : Kosher p) (hn : Q none) (hk : ∀ c, Sound (fl.modify m).nd p c → (k c).Good fl Q) : (Mk.need p m k).Good fl Q := by
  refine ⟨hp, fun r hr => ?_⟩
  cases r with
  | none => exact hn
  | some c => exact hk c (hr c rfl)

theorem modify_default (fl : Flags) : fl.modify {} = fl := by
  have h : ∀ x : BitVec 20, x &&& 1048575#20 = x := fun x => BitVec.and_allOnes
  cases fl; simp [Flags.modify, h]

@[simp] theorem map_fst_tag (sz : List Dim) : (tag sz).map Prod.fst = sz := by simp [tag, List.map_map, Function.comp_def]

theorem tag_append (a b : List Dim) : tag (a ++ b) = tag a ++ tag b := by simp [tag]

theorem locT_eq {V : Type} [Elt V] {τ : Type} (δi δo : ℤ) (sz : List (Dim × τ)) (vec : Tensor) :
    locT V δi δo sz vec = append (some [⟨Elt.nc V, δi, δo⟩]) (append (some (sz.map Prod.fst)) vec) := by
  cases vec <;> simp [locT, append]

theorem ins_append_congr {a b b' : Tensor} (h : ins b = ins b') : ins (append a b) = ins (append a b') := by
  have key : ∀ a b : Tensor, ins (append a b) = (ins a).bind fun x => (ins b).map fun y => x + y := by
    intro a b
    cases a with
    | none => simp [append, ins]
    | some a =>
      cases b with
      | none => simp only [append, ins, Multiset.map_zero, Multiset.bind_zero]
      | some b => simp only [append, ins, List.map_append, offs_append]
  rw [key, key, h]
theorem outs_append_congr {a b b' : Tensor} (h : outs b = outs b') : outs (append a b) = outs (append a b') := by
  have key : ∀ a b : Tensor, outs (append a b) = (outs a).bind fun x => (outs b).map fun y => x + y := by
    intro a b
    cases a with
    | none => simp [append, outs]
    | some a =>
      cases b with
      | none => simp only [append, outs, Multiset.map_zero, Multiset.bind_zero]
      | some b => simp only [append, outs, List.map_append, offs_append]
  rw [key, key, h]

/-- equal locations for transform and vector dimensions stay equal when the element components are added -/
theorem ins_locT_eq {V : Type} [Elt V] {τ : Type} {δ : ℤ} {sz : List (Dim × τ)} {vec : Tensor}
    (h : ins (append (some (sz.map Prod.fst)) vec) = outs (append (some (sz.map Prod.fst)) vec)) :
    ins (locT V δ δ sz vec) = outs (locT V δ δ sz vec) := by
  rw [locT_eq]
  have e1 : ∀ t : Tensor, ins (append (some [⟨Elt.nc V, δ, δ⟩]) t) = (offs [(Elt.nc V, δ)]).bind fun x => (ins t).map fun y => x + y := by
    intro t; cases t with
    | none => simp only [append, ins, Multiset.map_zero, Multiset.bind_zero]
    | some b => simp only [append, ins, List.map_append, offs_append]; rfl
  have e2 : ∀ t : Tensor, outs (append (some [⟨Elt.nc V, δ, δ⟩]) t) = (offs [(Elt.nc V, δ)]).bind fun x => (outs t).map fun y => x + y := by
    intro t; cases t with
    | none => simp only [append, outs, Multiset.map_zero, Multiset.bind_zero]
    | some b => simp only [append, outs, List.map_append, offs_append]; rfl
  rw [e1, e2, h]

variable [CLib]

theorem pairs_append_compress (sz : List Dim) (vec : Tensor) :
    pairs (append (some (compress sz)) (compressContiguous vec)) = pairs (append (some sz) vec) := by
  have key : ∀ (l : List Dim) (b : Tensor), pairs (append (some l) b) = (pairs (some l)).bind fun x => (pairs b).map fun y => x + y := by
    intro l b
    cases b with
    | none => simp only [append, pairs, Multiset.map_zero, Multiset.bind_zero]
    | some b => exact pairs_append l b
  rw [key, key, pairs_compress, pairs_compressContiguous]

theorem compress_sub {sz : List Dim} {d : Dim} (h : d ∈ compress sz) : d ∈ sz := by
  unfold compress at h
  have := (canonicalize_perm _).mem_iff.1 h
  exact List.mem_of_mem_filter this

theorem mergeLoop_mem (rest : List Dim) : ∀ cur prev : Dim, ∀ d ∈ mergeLoop cur prev rest,
    ∃ e, (e = cur ∨ e ∈ rest) ∧ d.is = e.is ∧ d.os = e.os := by
  induction rest with
  | nil => intro cur prev d hd; simp [mergeLoop] at hd; exact ⟨cur, Or.inl rfl, by simp [hd], by simp [hd]⟩
  | cons b rest ih =>
    intro cur prev d hd
    rw [mergeLoop] at hd
    split at hd
    · obtain ⟨e, he, h1, h2⟩ := ih _ _ d hd
      rcases he with rfl | he
      · exact ⟨b, by simp, h1, h2⟩
      · exact ⟨e, by simp [he], h1, h2⟩
    · rcases List.mem_cons.1 hd with rfl | hd
      · exact ⟨d, Or.inl rfl, rfl, rfl⟩
      · obtain ⟨e, he, h1, h2⟩ := ih _ _ d hd
        rcases he with rfl | he
        · exact ⟨e, by simp, h1, h2⟩
        · exact ⟨e, by simp [he], h1, h2⟩

/-- the strides of a compressed vector tensor are strides of the original -/
theorem compressContiguous_mem {vec : Tensor} {l : List Dim} (h : compressContiguous vec = some l) {d : Dim} (hd : d ∈ l) :
    ∃ l0, vec = some l0 ∧ ∃ e ∈ l0, d.is = e.is ∧ d.os = e.os := by
  cases vec with
  | none => simp [compressContiguous] at h
  | some l0 =>
    refine ⟨l0, rfl, ?_⟩
    unfold compressContiguous at h
    simp only at h
    split at h
    · simp at h
    · split at h
      · obtain rfl := Option.some.inj h
        exact ⟨d, List.mem_of_mem_filter hd, rfl, rfl⟩
      · have hp := CLib.perm compareByIstride (reallyCompress l0)
        split at h
        · obtain rfl := Option.some.inj h; simp at hd
        · rename_i a rest hq
          obtain rfl := Option.some.inj h
          rw [hq] at hp
          have := (canonicalize_perm _).mem_iff.1 hd
          obtain ⟨e, he, h1, h2⟩ := mergeLoop_mem _ _ _ d this
          refine ⟨e, ?_, h1, h2⟩
          have : e ∈ a :: rest := by simpa using he
          exact List.mem_of_mem_filter (hp.mem_iff.1 this)

/-- nonnegative strides -/
def NonNeg (l : List Dim) : Prop := ∀ d ∈ l, 0 ≤ d.is ∧ 0 ≤ d.os
omit [CLib] in
theorem nonNeg_append {a b : List Dim} : NonNeg (a ++ b) ↔ NonNeg a ∧ NonNeg b := by
  simp [NonNeg, or_imp, forall_and]; tauto
omit [CLib] in
theorem nonNeg_cons {d : Dim} {b : List Dim} : NonNeg (d :: b) ↔ (0 ≤ d.is ∧ 0 ≤ d.os) ∧ NonNeg b := by
  simp [NonNeg]
omit [CLib] in
theorem nonNeg_nil : NonNeg [] := by simp [NonNeg]
omit [CLib] in
theorem NonNeg.inplace {l : List Dim} (h : NonNeg l) (k : InplaceKind) : NonNeg (l.map (Dim.inplace k)) := by
  intro d hd
  obtain ⟨e, he, rfl⟩ := List.mem_map.1 hd
  have := h e he
  cases k <;> simp [Dim.inplace, this]
omit [CLib] in
theorem NonNeg.sub {l l' : List Dim} (h : NonNeg l) (hs : ∀ d ∈ l', d ∈ l) : NonNeg l' := fun d hd => h d (hs d hd)

/-- nonnegative strides of a vector tensor -/
def NonNegV (v : Tensor) : Prop := ∀ l, v = some l → NonNeg l
omit [CLib] in
theorem nonNegV_some {l : List Dim} : NonNegV (some l) ↔ NonNeg l := by simp [NonNegV]
omit [CLib] in
theorem nonNegV_append {a b : Tensor} (ha : NonNegV a) (hb : NonNegV b) : NonNegV (append a b) := by
  cases a <;> cases b <;> simp_all [append, NonNegV, nonNeg_append]
omit [CLib] in
theorem NonNegV.inplace {v : Tensor} (h : NonNegV v) (k : InplaceKind) : NonNegV (copyInplace k v) := by
  cases v with
  | none => intro l hl; simp [copyInplace] at hl
  | some l => rw [copyInplace, Option.map_some, nonNegV_some]; exact (nonNegV_some.1 h).inplace k

/-- positive extents -/
def Pos (l : List Dim) : Prop := ∀ d ∈ l, 0 < d.n
omit [CLib] in
theorem Pos.sub {l l' : List Dim} (h : Pos l) (hs : ∀ d ∈ l', d ∈ l) : Pos l' := fun d hd => h d (hs d hd)
omit [CLib] in
theorem Pos.inplace {l : List Dim} (h : Pos l) (k : InplaceKind) : Pos (l.map (Dim.inplace k)) := by
  intro d hd
  obtain ⟨e, he, rfl⟩ := List.mem_map.1 hd
  have := h e he
  cases k <;> simpa [Dim.inplace] using this
omit [CLib] in
theorem pos_nil : Pos [] := by simp [Pos]

theorem mergeLoop_pos (rest : List Dim) : ∀ cur prev : Dim, 0 < cur.n → Pos rest → Pos (mergeLoop cur prev rest) := by
  induction rest with
  | nil => intro cur prev hc _ d hd; simp [mergeLoop] at hd; rw [hd]; exact hc
  | cons b rest ih =>
    intro cur prev hc hr
    have hb : 0 < b.n := hr b (by simp)
    have hr' : Pos rest := hr.sub fun d hd => by simp [hd]
    rw [mergeLoop]
    split
    · exact ih _ _ (Nat.mul_pos hc hb) hr'
    · intro d hd
      rcases List.mem_cons.1 hd with rfl | hd
      · exact hc
      · exact ih _ _ hb hr' d hd

omit [CLib] in
theorem tensorSz_pos {l : List Dim} (h : tensorSz (some l) ≠ 0) : Pos l := by
  intro d hd
  by_contra hc
  apply h
  have hz : d.n = 0 := by omega
  simp only [tensorSz]
  exact List.prod_eq_zero (List.mem_map.2 ⟨d, hd, hz⟩)

theorem compressContiguous_pos {vec : Tensor} {l : List Dim} (h : compressContiguous vec = some l) : Pos l := by
  cases vec with
  | none => simp [compressContiguous] at h
  | some l0 =>
    unfold compressContiguous at h
    simp only at h
    split at h
    · simp at h
    · rename_i hs
      have hp0 := tensorSz_pos hs
      have hp1 : Pos (reallyCompress l0) := hp0.sub fun d hd => List.mem_of_mem_filter hd
      split at h
      · obtain rfl := Option.some.inj h
        exact hp1
      · have hp := CLib.perm compareByIstride (reallyCompress l0)
        split at h
        · obtain rfl := Option.some.inj h; exact pos_nil
        · rename_i a rest hq
          obtain rfl := Option.some.inj h
          rw [hq] at hp
          have h2 : Pos (a :: rest) := hp1.sub fun d hd => hp.mem_iff.1 hd
          exact (mergeLoop_pos rest a a (h2 a (by simp)) (h2.sub fun d hd => by simp [hd])).sub fun d hd => (canonicalize_perm _).mem_iff.1 hd

/-- no trivial dimension is left -/
theorem mergeLoop_big (rest : List Dim) : ∀ cur prev : Dim, 1 < cur.n → (∀ d ∈ rest, 1 < d.n) → ∀ d ∈ mergeLoop cur prev rest, 1 < d.n := by
  induction rest with
  | nil => intro cur prev hc _ d hd; simp [mergeLoop] at hd; rw [hd]; exact hc
  | cons b rest ih =>
    intro cur prev hc hr
    have hb : 1 < b.n := hr b (by simp)
    have hr' : ∀ d ∈ rest, 1 < d.n := fun d hd => hr d (by simp [hd])
    rw [mergeLoop]
    split
    · exact ih _ _ (by show 1 < cur.n * b.n; nlinarith) hr'
    · intro d hd
      rcases List.mem_cons.1 hd with rfl | hd
      · exact hc
      · exact ih _ _ hb hr' d hd

theorem compressContiguous_big {vec : Tensor} {l : List Dim} (h : compressContiguous vec = some l) : ∀ d ∈ l, 1 < d.n := by
  cases vec with
  | none => simp [compressContiguous] at h
  | some l0 =>
    unfold compressContiguous at h
    simp only at h
    split at h
    · simp at h
    · rename_i hs
      have hp0 := tensorSz_pos hs
      have hp1 : ∀ d ∈ reallyCompress l0, 1 < d.n := fun d hd => by
        have h1 := hp0 d (List.mem_of_mem_filter hd)
        have h2 := (List.mem_filter.1 hd).2
        simp only [ne_eq, decide_not, Bool.not_eq_true', decide_eq_false_iff_not] at h2
        omega
      split at h
      · obtain rfl := Option.some.inj h
        exact hp1
      · have hp := CLib.perm compareByIstride (reallyCompress l0)
        split at h
        · obtain rfl := Option.some.inj h; simp
        · rename_i a rest hq
          obtain rfl := Option.some.inj h
          rw [hq] at hp
          have h2 : ∀ d ∈ a :: rest, 1 < d.n := fun d hd => hp1 d (hp.mem_iff.1 hd)
          exact fun d hd => mergeLoop_big rest a a (h2 a (by simp)) (fun d hd => h2 d (by simp [hd])) d ((canonicalize_perm _).mem_iff.1 hd)

theorem compress_big {sz : List Dim} (h0 : Pos sz) {d : Dim} (hd : d ∈ compress sz) : 1 < d.n := by
  have h1 := (canonicalize_perm _).mem_iff.1 hd
  have h2 := h0 d (List.mem_of_mem_filter h1)
  have h3 := (List.mem_filter.1 h1).2
  simp only [ne_eq, decide_not, Bool.not_eq_true', decide_eq_false_iff_not] at h3
  omega

omit [CLib] in
theorem _root_.FFTW.Apart.mono {T T' : Tensor} {I O : Ptr} (h : Apart T I O) (h1 : ∀ a ∈ ins T', a ∈ ins T) (h2 : ∀ b ∈ outs T', b ∈ outs T) : Apart T' I O :=
  fun a ha b hb => h a (h1 a ha) b (h2 b hb)
omit [CLib] in
theorem _root_.FFTW.Apart.of_pairs {T T' : Tensor} {I O : Ptr} (h : Apart T I O) (hp : pairs T' = pairs T) : Apart T' I O :=
  h.mono (fun a ha => by rw [ins_eq] at ha ⊢; rwa [← hp]) (fun a ha => by rw [outs_eq] at ha ⊢; rwa [← hp])

theorem pairs_locT_compress {V : Type} [CommRing V] [Elt V] (δi δo : ℤ) (sz : List Dim) (vec : Tensor) :
    pairs (locT V δi δo (tag (compress sz)) (compressContiguous vec)) = pairs (locT V δi δo (tag sz) vec) := by
  rw [pairs_locT, pairs_locT, map_fst_tag, map_fst_tag, pairs_compress, pairs_compressContiguous]

theorem kosher_mkproblemDft {sz : List Dim} {vec : Tensor} {ri ii ro io : Ptr} (h1 : NonNeg sz) (h2 : NonNegV vec) (h0 : Pos sz)
    (ha : ri ≠ ro → Apart (locT ℂ (ii - ri) (io - ro) (tag sz) vec) ri ro) :
    Kosher (mkproblemDft sz vec ri ii ro io) := by
  unfold mkproblemDft
  split
  · trivial
  · rename_i hc
    refine ⟨?_, ?_, ?_, ?_⟩
    · intro he
      push Not at hc
      have hc' := hc he
      refine ⟨hc'.1, hc'.2.1, ?_⟩
      have := inplaceLocations_sound (by simpa using hc'.2.2)
      dsimp only
      rw [ins_eq, outs_eq, pairs_append_compress, ← ins_eq, ← outs_eq]; exact this
    · intro hne
      exact (ha hne).of_pairs (pairs_locT_compress ..)
    · intro d hd
      have := h1 d (compress_sub hd)
      exact ⟨this.1, this.2, compress_big h0 hd⟩
    · intro l hl d hd
      obtain ⟨l0, hl0, e, he, e1, e2⟩ := compressContiguous_mem hl hd
      rw [e1, e2]; exact ⟨(h2 l0 hl0 e he).1, (h2 l0 hl0 e he).2, compressContiguous_big hl d hd⟩

omit [CLib] in
theorem soundDft {nd : Bool} {p : DftP} {f : Ptr → Ptr → Ptr → Ptr → State → State} (hv : p.vecsz.isSome = true)
    (h : GOK dftK (tag p.sz) p.vecsz (p.ii - p.ri) (p.io - p.ro) (decide (p.ri = p.ro)) nd fun I O => f I (I + (p.ii - p.ri)) O (O + (p.io - p.ro))) :
    Sound nd (.dft p) (.dft f) := by
  simp only [Sound]; rw [hv, Bool.and_true]; exact h

omit [CLib] in
theorem soundRdft {nd : Bool} {p : RdftP} {f : Ptr → Ptr → State → State} (hv : p.vecsz.isSome = true)
    (h : GOK rK p.sz p.vecsz 0 0 (decide (p.I = p.O)) nd f) : Sound nd (.rdft p) (.rdft f) := by
  simp only [Sound]; rw [hv, Bool.and_true]; exact h

omit [CLib] in
/-- plans for empty problems -/
theorem _root_.FFTW.Spec.GOK.toInpl {V τ : Type} [CommRing V] [Elt V] {K : τ → ℕ → ℕ → ℕ → V} {sz : List (Dim × τ)} {vec : Tensor} {δi δo : ℤ} {b : Bool} {nd : Bool}
    {f : Ptr → Ptr → State → State} (h : GOK K sz vec δi δo (b && vec.isSome) nd f) : GOK K sz vec δi δo b nd f := by
  cases vec with
  | some l => simpa using h
  | none =>
    intro wf I O st hc
    refine h ⟨wf.out, wf.inp, by simp, by simp⟩ I O st ⟨hc.blkI, hc.blkO, by simp, fun _ a ha => ?_⟩
    rw [locT_none] at ha
    simp [ins] at ha

theorem compressContiguous_empty {vec : Tensor} (h : pairs vec = 0) : compressContiguous vec = none := by
  cases vec with
  | none => rfl
  | some l =>
    unfold compressContiguous
    have : tensorSz (some l) = 0 := by
      have hc := congrArg Multiset.card h
      rw [pairs, card_offs] at hc
      simpa [tensorSz, List.map_map, Function.comp_def] using hc
    simp only [this, if_true]

omit [CLib] in
theorem _root_.FFTW.Spec.GOK.of_empty {V τ : Type} [CommRing V] [Elt V] {K : τ → ℕ → ℕ → ℕ → V} {sz sz' : List (Dim × τ)} {vec : Tensor} {δi δo : ℤ} {nd : Bool}
    {f : Ptr → Ptr → State → State} (hv : pairs vec = 0) (h : GOK K sz' none δi δo false nd f) (b : Bool) : GOK K sz vec δi δo b nd f := by
  intro wf I O st hc
  have e : ins (locT V δi δo sz' none) = 0 ∧ outs (locT V δi δo sz' none) = 0 := by rw [locT_none]; exact ⟨rfl, rfl⟩
  obtain ⟨h1, _⟩ := h ⟨by rw [e.2]; simp, fun _ => by rw [e.1]; simp, by simp, by simp⟩ I O st ⟨hc.blkI, hc.blkO, by simp, fun _ a ha => by rw [e.1] at ha; simp at ha⟩
  refine ⟨h1.mono ?_, ?_⟩
  · rintro q _ (⟨b, hb, _⟩ | ⟨_, b, hb, _⟩)
    · rw [e.2] at hb; simp at hb
    · rw [e.1] at hb; simp at hb
  · intro dk _ ab hab; rw [hv] at hab; simp at hab

/-- a plan for an empty problem does nothing, on any pointers -/
theorem sound_mkproblemDft_empty {nd : Bool} {sz sz' : List Dim} {vec vec' : Tensor} {ri ii ro io : Ptr} {c : Plan} (hv : pairs vec = 0) (hv' : pairs vec' = 0)
    (h : Sound nd (mkproblemDft sz vec ri ii ro io) c) (b : Bool) :
    GOK dftK (tag sz') vec' (ii - ri) (io - ro) b nd (fun I O => c.dftApply I (I + (ii - ri)) O (O + (io - ro))) := by
  unfold mkproblemDft at h
  split at h
  · exact absurd h (by cases c <;> exact id)
  · cases c with
      | rdft f => exact absurd h id
      | rdft2 f => exact absurd h id
      | dft f =>
        simp only [Sound, compressContiguous_empty hv, Option.isSome_none, Bool.and_false] at h
        exact h.of_empty hv' b

theorem sound_mkproblemRdft_empty {nd : Bool} {sz sz' : List (Dim × RKind)} {vec vec' : Tensor} {I O : Ptr} {c : Plan} (hv : pairs vec = 0) (hv' : pairs vec' = 0)
    (h : Sound nd (mkproblemRdft sz vec I O) c) (b : Bool) : GOK rK sz' vec' 0 0 b nd c.rdftApply := by
  unfold mkproblemRdft at h
  split at h
  · exact absurd h (by cases c <;> exact id)
  · cases c with
      | dft f => exact absurd h id
      | rdft2 f => exact absurd h id
      | rdft f =>
        simp only [Sound, compressContiguous_empty hv, Option.isSome_none, Bool.and_false] at h
        exact h.of_empty hv' b

/-- what a plan for `X(mkproblem_dft)(sz, vecsz, ...)` does, in terms of the tensors before canonicalisation -/
theorem sound_mkproblemDft {nd : Bool} {sz : List Dim} {vec : Tensor} {ri ii ro io : Ptr} {c : Plan}
    (h : Sound nd (mkproblemDft sz vec ri ii ro io) c) :
    GOK dftK (tag sz) vec (ii - ri) (io - ro) (decide (ri = ro)) nd
      (fun I O => c.dftApply I (I + (ii - ri)) O (O + (io - ro))) ∧
    (ri = ro → ii = io ∧ ins (locT ℂ (ii - ri) (io - ro) (tag sz) vec) = outs (locT ℂ (ii - ri) (io - ro) (tag sz) vec)) := by
  unfold mkproblemDft at h
  split at h
  · exact absurd h (by cases c <;> exact id)
  · rename_i hc
    constructor
    · cases c with
      | rdft f => exact absurd h id
      | rdft2 f => exact absurd h id
      | dft f =>
        simp only [Sound] at h
        refine h.toInpl.transfer (pairs_compressContiguous _).symm (by rw [map_fst_tag, map_fst_tag, pairs_compress]) ?_
        intro dk hdk
        have hf := hdk.filter (K := dftK) (fun e => decide (e.1.n ≠ 1)) (by
          rintro ⟨d, _⟩ hd
          simp only [decide_eq_false_iff_not, not_not] at hd
          exact ⟨hd, by simp [dftK]⟩)
        have hperm : ((tag sz).filter fun e => decide (e.1.n ≠ 1)).Perm (tag (compress sz)) := by
          have : (tag sz).filter (fun e => decide (e.1.n ≠ 1)) = tag (reallyCompress sz) := by
            simp only [tag, reallyCompress, List.filter_map]; rfl
          rw [this]
          exact (canonicalize_perm _).symm.map _
        obtain ⟨dk', p, i⟩ := hf.1.perm hperm
        exact ⟨dk', i, by rw [← gOut_perm p, hf.2.1], fun x => by rw [← gSum_perm p, hf.2.2]⟩
    · rintro rfl
      push Not at hc
      obtain ⟨_, h2, h3⟩ := hc (Or.inl rfl)
      refine ⟨h2, ?_⟩
      subst h2
      apply ins_locT_eq
      rw [map_fst_tag]
      exact inplaceLocations_sound (by simpa using h3)

end FFTW
