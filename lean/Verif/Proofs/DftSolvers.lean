import Verif.Model.DftSolvers
import Verif.Proofs.Problem
import Verif.Proofs.GenVia

namespace FFTW.DftS
open Tensor Spec
variable [CLib]

omit [CLib] in
theorem dftSolver_sound {mk : DftP → Flags → Mk (Option Plan)}
    (h : ∀ p fl, Kosher (.dft p) → (mk p fl).Good fl fun r => ∀ pl, r = some pl → FFTW.Sound fl.nd (.dft p) pl) :
    (dftSolver mk).Sound := by
  intro p fl hk
  cases p with
  | dft p => exact h p fl hk
  | rdft p => intro pl hpl; simp at hpl
  | rdft2 p => intro pl hpl; simp at hpl
  | rdft2s p => intro pl hpl; simp at hpl
  | unsolvable => intro pl hpl; simp at hpl

omit [CLib] in
theorem good_nada {α : Type} {fl : Flags} {Q : α → Prop} : (Mk.nada : Mk (Option α)).Good fl fun r => ∀ pl, r = some pl → Q pl := by
  intro pl hpl; simp at hpl

omit [CLib] in
theorem good_ret {fl : Flags} {Q : Plan → Prop} {c : Plan} (h : Q c) : (Mk.ret (some c)).Good fl fun r => ∀ pl, r = some pl → Q pl := by
  intro pl hpl; obtain rfl := Option.some.inj hpl; exact h

omit [CLib] in
theorem good_need {fl : Flags} {Q : Plan → Prop} {p : Problem} {m : FMod} {k : Plan → Mk (Option Plan)}
    (hp : Kosher p) (hk : ∀ c, Sound (fl.modify m).nd p c → (k c).Good fl fun r => ∀ pl, r = some pl → Q pl) :
    (Mk.need p m k).Good fl fun r => ∀ pl, r = some pl → Q pl :=
  Mk.Good.need hp (fun pl h => by simp at h) hk

omit [CLib] in
/-- consequences of kosherness for a complex problem -/
theorem kosher_dft {p : DftP} (h : Kosher (.dft p)) :
    (NonNeg p.sz ∧ Pos p.sz ∧ (p.ri ≠ p.ro → Apart (locT ℂ (p.ii - p.ri) (p.io - p.ro) (tag p.sz) p.vecsz) p.ri p.ro)) ∧ NonNegV p.vecsz ∧
    (decide (p.ri = p.ro) = true → p.ii = p.io ∧
      ins (locT ℂ (p.ii - p.ri) (p.io - p.ro) (tag p.sz) p.vecsz) = outs (locT ℂ (p.ii - p.ri) (p.io - p.ro) (tag p.sz) p.vecsz)) := by
  obtain ⟨h1, ha, h2, h3⟩ := h
  refine ⟨⟨fun d hd => ⟨(h2 d hd).1, (h2 d hd).2.1⟩, fun d hd => (by have := (h2 d hd).2.2; omega), ha⟩, fun l hl d hd => ⟨(h3 l hl d hd).1, (h3 l hl d hd).2.1⟩, ?_⟩
  intro he
  have he := of_decide_eq_true he
  obtain ⟨_, h5, h6⟩ := h1 (Or.inl he)
  refine ⟨h5, ?_⟩
  rw [h5, he]
  exact ins_locT_eq (by rw [map_fst_tag]; exact h6)

omit [CLib] in
theorem kosher_vpos {p : DftP} (h : Kosher (.dft p)) {l : List Dim} (hl : p.vecsz = some l) : Pos l := fun d hd => by have := (h.2.2.2 l hl d hd).2.2; omega

omit [CLib] in
/-- fewer vector elements -/
theorem _root_.FFTW.Apart.vec_mono {V τ : Type} [CommRing V] [Elt V] {sz : List (Dim × τ)} {vec vec' : Tensor} {δi δo : ℤ} {I O : Ptr} (h : Apart (locT V δi δo sz vec) I O)
    (hs : ∀ x ∈ pairs vec', x ∈ pairs vec) : Apart (locT V δi δo sz vec') I O := by
  have key : ∀ x ∈ pairs (locT V δi δo sz vec'), x ∈ pairs (locT V δi δo sz vec) := by
    intro x hx
    rw [mem_locT] at hx ⊢
    obtain ⟨c, hc, s, hs', v, hv, e⟩ := hx
    exact ⟨c, hc, s, hs', v, hs v hv, e⟩
  refine h.mono ?_ ?_
  · intro a ha; obtain ⟨b, hb⟩ := mem_ins.1 ha; exact mem_ins.2 ⟨b, key _ hb⟩
  · intro a ha; obtain ⟨b, hb⟩ := mem_outs.1 ha; exact mem_outs.2 ⟨b, key _ hb⟩

omit [CLib] in
theorem mem_pairs_of_pos {d : Dim} {l : List Dim} (hd : 0 < d.n) {x : ℤ × ℤ} (hx : x ∈ pairs (some l)) : x ∈ pairs (some (d :: l)) :=
  mem_pairs_cons.2 ⟨0, hd, x, hx, by simp⟩

theorem nop_sound : nop.Sound := by
  apply dftSolver_sound
  intro p fl hk
  split
  · rename_i h
    apply good_ret
    simp only [FFTW.Sound]
    rcases h with h | ⟨h1, l, h2, h3, h4⟩
    · rw [h]; exact GOK_empty rfl _ _ _ _
    · have : p.sz = [] := List.length_eq_zero_iff.1 h1
      rw [this, h2, show (decide (p.ri = p.ro) && (some l).isSome) = true by simp [h3]]
      exact GOK_nop h4 _ _ _
  · exact good_nada

theorem pickdim_spec {which : Int} {buddies : List Int} {sz : List Dim} {oop : Bool} {i : ℕ}
    (h : pickdim which buddies sz oop = some i) : ∃ d, sz[i]? = some d ∧ (oop = true ∨ d.is = d.os) := by
  have h1 : reallyPickdim which sz oop = some i := by
    unfold pickdim at h
    split at h
    · simp at h
    · rename_i d hd
      split at h
      · simp at h
      · rw [hd]; exact h
  have key : pickOk sz oop i = true → ∃ d, sz[i]? = some d ∧ (oop = true ∨ d.is = d.os) := by
    intro hk
    unfold pickOk at hk
    cases hd : sz[i]? with
    | none => rw [hd] at hk; simp at hk
    | some d => rw [hd] at hk; exact ⟨d, rfl, by simpa using hk⟩
  unfold reallyPickdim at h1
  dsimp only at h1
  split at h1
  · exact key (List.mem_filter.1 (List.mem_of_getElem? h1)).2
  · split at h1
    · exact key (List.mem_filter.1 (List.mem_of_getElem? h1)).2
    · by_cases hk : pickOk sz oop ((sz.length - 1) / 2) = true
      · rw [if_pos hk] at h1
        obtain rfl := Option.some.inj h1
        exact key hk
      · rw [if_neg hk] at h1; simp at h1

omit [CLib] in
theorem eraseIdx_perm {l : List Dim} {i : ℕ} {d : Dim} (h : l[i]? = some d) : l.Perm (d :: l.eraseIdx i) := by
  obtain ⟨hi, rfl⟩ := List.getElem?_eq_some_iff.1 h
  exact (List.getElem_cons_eraseIdx_perm hi).symm

theorem vrankGeq1_sound (vecloopDim : Int) (buddies : List Int) (taste : Taste) : (vrankGeq1 vecloopDim buddies taste).Sound := by
  apply dftSolver_sound
  intro p fl hk
  obtain ⟨⟨hn1, hn0, hap⟩, hn2, hip⟩ := kosher_dft hk
  split
  · exact good_nada
  rename_i v hv
  rw [hv] at hn2
  split
  rotate_left
  · exact good_nada
  split
  · exact good_nada
  rename_i vdim hpick
  split
  rotate_left
  · exact good_nada
  split
  · exact good_nada
  rename_i d hd
  obtain ⟨d', hd', hs⟩ := pickdim_spec hpick
  rw [hd] at hd'
  obtain rfl := Option.some.inj hd'
  have hperm := eraseIdx_perm hd
  apply good_need
  · refine kosher_mkproblemDft hn1 ?_ hn0 ?_
    · rw [nonNegV_some] at *
      exact hn2.sub fun e he => List.mem_of_mem_eraseIdx he
    · intro hne
      refine (hap hne).vec_mono fun x hx => ?_
      rw [hv, pairs_perm hperm]
      exact mem_pairs_of_pos (kosher_vpos hk hv d (List.mem_of_getElem? hd)) hx
  intro c hc
  rw [modify_default] at hc
  obtain ⟨hG, hI⟩ := sound_mkproblemDft hc
  apply good_ret
  refine soundDft (by simp [hv]) ?_
  rw [hv]
  apply GOK.vec_congr _ (pairs_perm hperm)
  refine (GOK_loop (d := d) hG (fun h => (hI (of_decide_eq_true h)).2) ?_).congr ?_
  · intro h
    rcases hs with hs | hs
    · simp at h hs; exact absurd h hs
    · exact hs
  · intro I O st
    congr 1
    funext i st
    simp only [Ptr.add_add]
    rw [add_comm ((i : ℤ) * d.is), add_comm ((i : ℤ) * d.os)]

theorem tag_inplace (k : InplaceKind) (l : List Dim) : tag (l.map (Dim.inplace k)) = (tag l).map (inpl1 k) := by
  simp [tag, inpl1, List.map_map, Function.comp_def]

theorem rankGeq2_sound (spltrnk : Int) (buddies : List Int) (taste : Taste) : (rankGeq2 spltrnk buddies taste).Sound := by
  apply dftSolver_sound
  intro p fl hk
  obtain ⟨⟨hn1, hn0, hap⟩, hn2, hip⟩ := kosher_dft hk
  dsimp only
  split
  rotate_left
  · exact good_nada
  rename_i hv0
  split
  · exact good_nada
  rename_i r hr
  split
  rotate_left
  · exact good_nada
  set sz1 := p.sz.take (r + 1) with hsz1
  set sz2 := p.sz.drop (r + 1) with hsz2
  have hsz : p.sz = sz1 ++ sz2 := (List.take_append_drop _ _).symm
  have hnn := hn1
  rw [hsz, nonNeg_append] at hnn
  apply good_need
  · refine kosher_mkproblemDft hnn.2 (nonNegV_append hn2 (nonNegV_some.2 hnn.1)) (hn0.sub fun d hd => List.mem_of_mem_drop hd) fun hne => ?_
    refine (hap hne).of_pairs ?_
    have := pairs_locT_move (V := ℂ) (p.ii - p.ri) (p.io - p.ro) (tag sz1) (tag sz2) p.vecsz
    rw [map_fst_tag, ← tag_append, ← hsz] at this
    exact this
  intro c1 h1
  rw [modify_default] at h1
  obtain ⟨hG1, _⟩ := sound_mkproblemDft h1
  apply good_need
  · exact kosher_mkproblemDft (hnn.1.inplace _) (nonNegV_append (hn2.inplace _) ((nonNegV_some.2 hnn.2).inplace _))
      (Pos.inplace (hn0.sub fun d hd => List.mem_of_mem_take hd) _) fun h => absurd rfl h
  intro c2 h2
  rw [modify_default] at h2
  obtain ⟨hG2, _⟩ := sound_mkproblemDft h2
  apply good_ret
  refine soundDft hv0.1 ?_
  rw [show decide (p.ro = p.ro) = true by simp, tag_inplace] at hG2
  rw [hsz, tag_append]
  refine GOK_split (sz1 := tag sz1) (sz2 := tag sz2) (nd2 := fl.nd) ?_ ?_ (f1 := fun I O => c1.dftApply I (I + (p.ii - p.ri)) O (O + (p.io - p.ro)))
    (f2 := fun I O => c2.dftApply I (I + (p.io - p.ro)) O (O + (p.io - p.ro)))
  · rw [map_fst_tag]; exact hG1
  · rw [map_fst_tag]; exact hG2

theorem nd_noBuffering (fl : Flags) : (fl.modify { lset := NO_BUFFERING }).nd = fl.nd := by
  simp only [Flags.nd, Flags.modify, NO_DESTROY_INPUT, NO_BUFFERING]
  congr 1
  apply propext
  apply not_congr
  have : ∀ x : BitVec 20, (x &&& ~~~0 ||| 0x400) &&& 0x1000 = x &&& 0x1000 := by
    intro x
    ext i hi
    simp only [BitVec.getElem_and, BitVec.getElem_or, BitVec.getElem_not]
    have : i < 20 := hi
    interval_cases i <;> simp
  rw [this]

theorem indirect_sound (after : Bool) (taste : Taste) : (indirect after taste).Sound := by
  apply dftSolver_sound
  intro p fl hk
  obtain ⟨⟨hn1, hn0, hap⟩, hn2, hip⟩ := kosher_dft hk
  split
  · exact good_nada
  rename_i v hv
  split
  rotate_left
  · exact good_nada
  rename_i happ
  apply good_need
  · refine kosher_mkproblemDft nonNeg_nil (nonNegV_append hn2 (nonNegV_some.2 hn1)) pos_nil fun hne => ?_
    refine (hap hne).of_pairs ?_
    have := pairs_locT_move (V := ℂ) (p.ii - p.ri) (p.io - p.ro) (tag p.sz) [] p.vecsz
    rw [map_fst_tag, List.append_nil] at this
    exact this
  intro c1 h1
  rw [modify_default] at h1
  obtain ⟨hG1, _⟩ := sound_mkproblemDft h1
  cases after with
  | true =>
    simp only [if_true]
    apply good_need
    · exact kosher_mkproblemDft (hn1.inplace _) (hn2.inplace _) (hn0.inplace _) fun h => absurd rfl h
    intro c2 h2
    obtain ⟨hG2, _⟩ := sound_mkproblemDft h2
    apply good_ret
    refine soundDft (by simp [hv]) ?_
    rw [show decide (p.ri = p.ri) = true by simp, tag_inplace] at hG2
    refine GOK_copyLast (sz := tag p.sz) (nd1 := (fl.modify { lset := NO_BUFFERING }).nd) (nd2 := fl.nd) hG2
      (f2 := fun I O => c1.dftApply I (I + (p.ii - p.ri)) O (O + (p.io - p.ro))) ?_ ?_ ?_
    · rw [map_fst_tag]; exact hG1
    · obtain ⟨happ, _⟩ := happ
      simp only [indirectApplicable, Bool.and_eq_true, Bool.or_eq_true, decide_eq_true_eq, Bool.not_eq_true', Bool.not_true] at happ
      by_cases h : p.ri = p.ro
      · right; simp [h]
      · left
        rcases happ.2 with (h' | h') | h'
        · exact absurd h'.1.1 h
        · exact h'.1.1.2
        · simp at h'
    · intro h; exact Or.inl h
  | false =>
    simp only [Bool.false_eq_true, if_false]
    apply good_need
    · exact kosher_mkproblemDft (hn1.inplace _) (hn2.inplace _) (hn0.inplace _) fun h => absurd rfl h
    intro c2 h2
    rw [nd_noBuffering] at h2
    obtain ⟨hG2, _⟩ := sound_mkproblemDft h2
    apply good_ret
    refine soundDft (by simp [hv]) ?_
    rw [show decide (p.ro = p.ro) = true by simp, tag_inplace] at hG2
    have := GOK_split (sz1 := tag p.sz) (sz2 := []) (vec := p.vecsz) (nd2 := fl.nd) (nd := fl.nd) (inpl := decide (p.ri = p.ro))
      (δi := p.ii - p.ri) (δo := p.io - p.ro)
      (f1 := fun I O => c1.dftApply I (I + (p.ii - p.ri)) O (O + (p.io - p.ro)))
      (f2 := fun I O => c2.dftApply I (I + (p.io - p.ro)) O (O + (p.io - p.ro))) (K := dftK) ?_ ?_
    · rwa [List.append_nil] at this
    · rw [map_fst_tag]; exact hG1
    · have e : append (copyInplace .OS p.vecsz) (some ((List.map Prod.fst ([] : List (Dim × Unit))).map (Dim.inplace .OS))) = copyInplace .OS p.vecsz := by
        rw [hv]; simp [copyInplace, append]
      rw [e]; exact hG2

omit [CLib] in
theorem modify_perm {l : List Dim} {i : ℕ} {d : Dim} (f : Dim → Dim) (h : l[i]? = some d) :
    (l.modify i f).Perm (f d :: l.eraseIdx i) := by
  induction l generalizing i with
  | nil => simp at h
  | cons a l ih =>
    cases i with
    | zero => simp at h; subst h; simp
    | succ i =>
      simp only [List.getElem?_cons_succ] at h
      simp only [List.modify_succ_cons, List.eraseIdx_cons_succ]
      exact ((ih h).cons a).trans (List.Perm.swap _ _ _)

omit [CLib] in
theorem inplaceStrides_mem {l : List Dim} (h : inplaceStrides l = true) {d : Dim} (hd : d ∈ l) : d.is = d.os := by
  simp only [inplaceStrides, List.all_eq_true, decide_eq_true_eq] at h
  exact h d hd

omit [CLib] in
theorem ins_eq_outs_of_inplace {l : List Dim} (h : ∀ d ∈ l, d.is = d.os) : ins (some l) = outs (some l) := by
  simp only [ins, outs]
  congr 1
  exact List.map_congr_left fun d hd => by rw [h d hd]

omit [CLib] in
theorem nonNeg_modify {l : List Dim} {i : ℕ} {d : Dim} {f : Dim → Dim} (h : l[i]? = some d) (hn : NonNeg l) (hf : 0 ≤ (f d).is ∧ 0 ≤ (f d).os) :
    NonNeg (l.modify i f) := by
  intro e he
  have := (modify_perm f h).mem_iff.1 he
  rcases List.mem_cons.1 this with rfl | h'
  · exact hf
  · exact hn e (List.mem_of_mem_eraseIdx h')

omit [CLib] in
theorem pos_modify {l : List Dim} {i : ℕ} {d : Dim} {f : Dim → Dim} (h : l[i]? = some d) (hn : Pos l) (hf : 0 < (f d).n) : Pos (l.modify i f) := by
  intro e he
  have := (modify_perm f h).mem_iff.1 he
  rcases List.mem_cons.1 this with rfl | h'
  · exact hf
  · exact hn e (List.mem_of_mem_eraseIdx h')

omit [CLib] in
theorem ptr_shift_sub (a b : Ptr) (x : ℤ) : (a + x) - (b + x) = a - b := by
  change (a.off + x) - (b.off + x) = a.off - b.off
  ring

omit [CLib] in
theorem ptr_add_inj {a b : Ptr} {x : ℤ} : a + x = b + x ↔ a = b := by
  constructor
  · intro h
    have h1 := congrArg Ptr.blk h
    have h2 := congrArg Ptr.off h
    change a.blk = b.blk at h1
    change a.off + x = b.off + x at h2
    exact Ptr.ext h1 (by omega)
  · rintro rfl; rfl

omit [CLib] in
theorem mem_ins_locT {V τ : Type} [CommRing V] [Elt V] {δi δo : ℤ} {sz : List (Dim × τ)} {vec : Tensor} {a : ℤ} :
    a ∈ ins (locT V δi δo sz vec) ↔ ∃ c < Elt.nc V, ∃ s ∈ ins (some (sz.map Prod.fst)), ∃ v ∈ ins vec, a = (c : ℤ) * δi + (s + v) := by
  rw [mem_ins]
  constructor
  · rintro ⟨b, hb⟩
    rw [mem_locT] at hb
    obtain ⟨c, hc, s, hs, v, hv, e⟩ := hb
    exact ⟨c, hc, s.1, mem_ins.2 ⟨s.2, hs⟩, v.1, mem_ins.2 ⟨v.2, hv⟩, congrArg Prod.fst e⟩
  · rintro ⟨c, hc, s, hs, v, hv, rfl⟩
    obtain ⟨s2, hs⟩ := mem_ins.1 hs
    obtain ⟨v2, hv⟩ := mem_ins.1 hv
    exact ⟨(c : ℤ) * δo + (s2 + v2), mem_locT.2 ⟨c, hc, _, hs, _, hv, rfl⟩⟩
omit [CLib] in
theorem mem_outs_locT {V τ : Type} [CommRing V] [Elt V] {δi δo : ℤ} {sz : List (Dim × τ)} {vec : Tensor} {a : ℤ} :
    a ∈ outs (locT V δi δo sz vec) ↔ ∃ c < Elt.nc V, ∃ s ∈ outs (some (sz.map Prod.fst)), ∃ v ∈ outs vec, a = (c : ℤ) * δo + (s + v) := by
  rw [mem_outs]
  constructor
  · rintro ⟨b, hb⟩
    rw [mem_locT] at hb
    obtain ⟨c, hc, s, hs, v, hv, e⟩ := hb
    exact ⟨c, hc, s.2, mem_outs.2 ⟨s.1, hs⟩, v.2, mem_outs.2 ⟨v.1, hv⟩, congrArg Prod.snd e⟩
  · rintro ⟨c, hc, s, hs, v, hv, rfl⟩
    obtain ⟨s2, hs⟩ := mem_outs.1 hs
    obtain ⟨v2, hv⟩ := mem_outs.1 hv
    exact ⟨(c : ℤ) * δi + (s2 + v2), mem_locT.2 ⟨c, hc, _, hs, _, hv, rfl⟩⟩

omit [CLib] in
theorem copyInplace_some (k : InplaceKind) (l : List Dim) : copyInplace k (some l) = some (l.map (Dim.inplace k)) := rfl

omit [CLib] in
theorem ins_perm {l l' : List Dim} (h : l.Perm l') : ins (some l) = ins (some l') := by rw [ins_eq, ins_eq, pairs_perm h]
omit [CLib] in
theorem outs_perm {l l' : List Dim} (h : l.Perm l') : outs (some l) = outs (some l') := by rw [outs_eq, outs_eq, pairs_perm h]
omit [CLib] in
theorem mem_ins_append {a b : List Dim} {x : ℤ} : x ∈ ins (some (a ++ b)) ↔ ∃ y ∈ ins (some a), ∃ z ∈ ins (some b), x = y + z := by
  simp only [mem_ins]
  constructor
  · rintro ⟨w, h⟩; obtain ⟨y, hy, z, hz, e⟩ := mem_pairs_append.1 h; exact ⟨y.1, ⟨y.2, hy⟩, z.1, ⟨z.2, hz⟩, congrArg Prod.fst e⟩
  · rintro ⟨y, ⟨y2, hy⟩, z, ⟨z2, hz⟩, rfl⟩; exact ⟨y2 + z2, mem_pairs_append.2 ⟨_, hy, _, hz, rfl⟩⟩
omit [CLib] in
theorem mem_outs_append {a b : List Dim} {x : ℤ} : x ∈ outs (some (a ++ b)) ↔ ∃ y ∈ outs (some a), ∃ z ∈ outs (some b), x = y + z := by
  simp only [mem_outs]
  constructor
  · rintro ⟨w, h⟩; obtain ⟨y, hy, z, hz, e⟩ := mem_pairs_append.1 h; exact ⟨y.2, ⟨y.1, hy⟩, z.2, ⟨z.1, hz⟩, congrArg Prod.snd e⟩
  · rintro ⟨y, ⟨y2, hy⟩, z, ⟨z2, hz⟩, rfl⟩; exact ⟨y2 + z2, mem_pairs_append.2 ⟨_, hy, _, hz, rfl⟩⟩

omit [CLib] in
/-- the dimensions picked by `pickdim` of indirect-transpose.c: the vector length is at least the transform length -/
theorem itPickdim_spec {vs s : List Dim} {a b : ℕ} (h : itPickdim vs s = some (a, b)) {dv ds : Dim} (ha : vs[a]? = some dv) (hb : s[b]? = some ds) : ds.n ≤ dv.n := by
  let Q : Option (ℕ × ℕ) → Prop := fun o => ∀ a b, o = some (a, b) → ∀ dv ds, vs[a]? = some dv → s[b]? = some ds → ds.n ≤ dv.n
  have inner : ∀ (l : List ℕ) (d0 : ℕ) (best : Option (ℕ × ℕ)), Q best → Q (l.foldl (fun best dim1 => if itTest vs s best d0 dim1 then some (d0, dim1) else best) best) := by
    intro l
    induction l with
    | nil => intro d0 best hq; exact hq
    | cons x l ih =>
      intro d0 best hq
      rw [List.foldl_cons]
      apply ih
      split
      · rename_i ht
        intro a b e dv ds h1 h2
        obtain ⟨rfl, rfl⟩ := Prod.mk.inj (Option.some.inj e)
        unfold itTest at ht
        rw [h1, h2] at ht
        simp only [Bool.and_eq_true, decide_eq_true_eq] at ht
        exact ht.1.2
      · exact hq
  have outer : ∀ (l : List ℕ) (best : Option (ℕ × ℕ)), Q best → Q (l.foldl (fun best dim0 => (List.range s.length).foldl (fun best dim1 => if itTest vs s best dim0 dim1 then some (dim0, dim1) else best) best) best) := by
    intro l
    induction l with
    | nil => intro best hq; exact hq
    | cons x l ih => intro best hq; rw [List.foldl_cons]; exact ih _ (inner _ _ _ hq)
  exact outer _ none (fun _ _ h => by simp at h) a b h dv ds ha hb

theorem indirectTranspose_sound (taste : Taste) : (indirectTranspose taste).Sound := by
  apply dftSolver_sound
  intro p fl hk
  obtain ⟨⟨hn1, hn0, hap⟩, hn2, hip⟩ := kosher_dft hk
  split
  · exact good_nada
  rename_i v hv
  split
  rotate_left
  · exact good_nada
  rename_i hstr
  split
  · exact good_nada
  rename_i pdim0 pdim1 hpick
  split
  rotate_left
  · exact good_nada
  rename_i dv ds hdv hds
  split
  rotate_left
  · exact good_nada
  dsimp only
  simp only [inplaceStrides2, Bool.and_eq_true] at hstr
  have hsv : ∀ d ∈ v, d.is = d.os := fun d hd => inplaceStrides_mem hstr.1 hd
  have hss : ∀ d ∈ p.sz, d.is = d.os := fun d hd => inplaceStrides_mem hstr.2 hd
  have hdv' := hsv dv (List.mem_of_getElem? hdv)
  have hds' := hss ds (List.mem_of_getElem? hds)
  rw [hv] at hn2
  rw [nonNegV_some] at hn2
  have hndv := hn2 dv (List.mem_of_getElem? hdv)
  have hnds := hn1 ds (List.mem_of_getElem? hds)
  have hdvm : (v.map (Dim.inplace .IS))[pdim0]? = some (Dim.inplace .IS dv) := by simp [hdv]
  have hdsm : (p.sz.map (Dim.inplace .IS))[pdim1]? = some (Dim.inplace .IS ds) := by simp [hds]
  set vr := v.eraseIdx pdim0 with hvr
  set sr := p.sz.eraseIdx pdim1 with hsr
  have hpv : v.Perm (dv :: vr) := eraseIdx_perm hdv
  have hps : p.sz.Perm (ds :: sr) := eraseIdx_perm hds
  have hvr' : ∀ d ∈ vr, d.is = d.os := fun d hd => hsv d (List.mem_of_mem_eraseIdx hd)
  have hsr' : ∀ d ∈ sr, d.is = d.os := fun d hd => hss d (List.mem_of_mem_eraseIdx hd)
  have idIS : ∀ d : Dim, d.is = d.os → Dim.inplace .IS d = d := by
    intro d hd; cases d; simp only [Dim.inplace] at *; simp [hd]
  apply good_need
  · refine kosher_mkproblemDft nonNeg_nil ?_ pos_nil ?_
    rotate_left
    · intro hne
      refine (hap hne).mono ?_ ?_
      · intro a ha
        rw [append, mem_ins_locT] at ha
        obtain ⟨c, hc, s, hs, w, hw, rfl⟩ := ha
        obtain rfl : s = 0 := by simpa [ins, offs] using hs
        rw [hv, mem_ins_locT, map_fst_tag, ins_perm hps, ins_perm hpv]
        rw [mem_ins_append, ins_perm (modify_perm _ hdvm), ins_perm (modify_perm _ hdsm)] at hw
        obtain ⟨y, hy, z, hz, rfl⟩ := hw
        rw [List.eraseIdx_map] at hy hz
        obtain ⟨j, hj, y', hy', rfl⟩ := mem_ins_cons.1 hy
        obtain ⟨i, hi, z', hz', rfl⟩ := mem_ins_cons.1 hz
        rw [← copyInplace_some, ins_inplace_IS] at hy' hz'
        simp only [Dim.inplace] at hi hj
        exact ⟨c, hc, _, mem_ins_cons.2 ⟨i, hi, z', hz', rfl⟩, _, mem_ins_cons.2 ⟨j, by have := itPickdim_spec hpick hdv hds; omega, y', hy', rfl⟩, by simp only [Dim.inplace]; ring⟩
      · intro a ha
        rw [append, mem_outs_locT] at ha
        obtain ⟨c, hc, s, hs, w, hw, rfl⟩ := ha
        obtain rfl : s = 0 := by simpa [outs, offs] using hs
        rw [hv, mem_outs_locT, map_fst_tag, outs_perm hps, outs_perm hpv]
        rw [mem_outs_append, outs_perm (modify_perm _ hdvm), outs_perm (modify_perm _ hdsm)] at hw
        obtain ⟨y, hy, z, hz, rfl⟩ := hw
        rw [List.eraseIdx_map] at hy hz
        obtain ⟨j, hj, y', hy', rfl⟩ := mem_outs_cons.1 hy
        obtain ⟨i, hi, z', hz', rfl⟩ := mem_outs_cons.1 hz
        rw [← copyInplace_some, outs_inplace_IS, ins_eq_outs_of_inplace hvr'] at hy'
        rw [← copyInplace_some, outs_inplace_IS, ins_eq_outs_of_inplace hsr'] at hz'
        simp only [Dim.inplace] at hi hj
        exact ⟨c, hc, _, mem_outs_cons.2 ⟨j, hj, z', hz', rfl⟩, _, mem_outs_cons.2 ⟨i, by have := itPickdim_spec hpick hdv hds; omega, y', hy', rfl⟩,
          by simp only [Dim.inplace]; rw [hdv', hds']; ring⟩
    refine nonNegV_append (nonNegV_some.2 (nonNeg_modify hdvm (hn2.inplace _) ?_)) (nonNegV_some.2 (nonNeg_modify hdsm (hn1.inplace _) ?_))
    · simp [Dim.inplace, hndv, hnds]
    · simp [Dim.inplace, hndv, hnds]
  intro c1 h1
  rw [modify_default] at h1
  obtain ⟨hG1, _⟩ := sound_mkproblemDft h1
  apply good_need
  · refine kosher_mkproblemDft (nonNeg_modify hds hn1 ?_) (nonNegV_some.2 (nonNeg_modify hdv hn2 ?_)) (pos_modify hds hn0 (hn0 ds (List.mem_of_getElem? hds))) (fun h => absurd rfl h)
    · simp [hndv, hnds]
    · simp [hndv, hnds]
  intro c2 h2
  rw [modify_default] at h2
  obtain ⟨hG2, hI2⟩ := sound_mkproblemDft h2
  apply good_need
  · refine kosher_mkproblemDft hn1 (nonNegV_some.2 (nonNeg_modify hdv hn2 ?_)) hn0 ?_
    · simp [hndv]
    · intro hne
      have hne' : p.ri ≠ p.ro := by
        intro e; apply hne; rw [e, hdv']
      rw [ptr_shift_sub, ptr_shift_sub]
      have hle : dv.n / ds.n * ds.n ≤ dv.n := Nat.div_mul_le_self _ _
      intro a ha b hb
      rw [Ptr.add_add, Ptr.add_add]
      apply hap hne'
      · rw [mem_ins_locT, map_fst_tag, ins_perm (modify_perm _ hdv)] at ha
        obtain ⟨c, hc, s, hs, w, hw, rfl⟩ := ha
        obtain ⟨j, hj, y, hy, rfl⟩ := mem_ins_cons.1 hw
        rw [hv, mem_ins_locT, map_fst_tag, ins_perm hpv]
        simp only at hj
        exact ⟨c, hc, s, hs, _, mem_ins_cons.2 ⟨dv.n / ds.n * ds.n + j, by omega, y, hy, rfl⟩, by push_cast; ring⟩
      · rw [mem_outs_locT, map_fst_tag, outs_perm (modify_perm _ hdv)] at hb
        obtain ⟨c, hc, s, hs, w, hw, rfl⟩ := hb
        obtain ⟨j, hj, y, hy, rfl⟩ := mem_outs_cons.1 hw
        rw [hv, mem_outs_locT, map_fst_tag, outs_perm hpv]
        simp only at hj
        exact ⟨c, hc, s, hs, _, mem_outs_cons.2 ⟨dv.n / ds.n * ds.n + j, by omega, y, hy, rfl⟩, by push_cast; ring⟩
  intro c3 h3
  rw [modify_default] at h3
  obtain ⟨hG3, hI3⟩ := sound_mkproblemDft h3
  apply good_ret
  refine soundDft (by simp [hv]) ?_
  set vl := dv.n / ds.n with hvl
  have hI2 := (hI2 rfl).2
  rw [show decide (p.ro = p.ro) = true by simp] at hG2
  -- the two steps of one piece
  have hT1 : (v.map (Dim.inplace .IS)).eraseIdx pdim0 = vr.map (Dim.inplace .IS) := by rw [List.eraseIdx_map]
  have hT2 : (p.sz.map (Dim.inplace .IS)).eraseIdx pdim1 = sr.map (Dim.inplace .IS) := by rw [List.eraseIdx_map]
  let szm : List ((Dim × Unit) × ℤ) := ((ds, ()), dv.is) :: sr.map fun d => ((d, ()), d.is)
  let vm : List (Dim × ℤ) := (⟨ds.n, dv.is, dv.os⟩, ds.is) :: vr.map fun d => (d, d.is)
  have e_sz : szm.map Prod.fst = tag (ds :: sr) := by simp [szm, tag, List.map_map, Function.comp_def]
  have e_v : vm.map Prod.fst = ⟨ds.n, dv.is, dv.os⟩ :: vr := by simp [vm, List.map_map, Function.comp_def]
  have e_fsz : (szm.map fun e => (fromMid (e.1.1, e.2), e.1.2)) = tag (⟨ds.n, dv.is, ds.os⟩ :: sr) := by
    simp [szm, tag, List.map_map, Function.comp_def, fromMid]
  have e_fv : vm.map fromMid = ⟨ds.n, ds.is, dv.os⟩ :: vr := by
    simp [vm, List.map_map, Function.comp_def, fromMid]
  have hPs : (tag (p.sz.modify pdim1 fun d => { d with is := dv.is })).Perm (tag (⟨ds.n, dv.is, ds.os⟩ :: sr)) :=
    (modify_perm _ hds).map _
  have hPv : (v.modify pdim0 fun d => { d with is := ds.is, n := ds.n }).Perm (⟨ds.n, ds.is, dv.os⟩ :: vr) := modify_perm _ hdv
  have hloc : pairs (locT ℂ (p.io - p.ro) (p.io - p.ro) (tag (p.sz.modify pdim1 fun d => { d with is := dv.is })) (some (v.modify pdim0 fun d => { d with is := ds.is, n := ds.n }))) =
      pairs (locT ℂ (p.io - p.ro) (p.io - p.ro) (tag (⟨ds.n, dv.is, ds.os⟩ :: sr)) (some (⟨ds.n, ds.is, dv.os⟩ :: vr))) := by
    rw [pairs_locT, pairs_locT, pairs_perm (hPs.map Prod.fst), pairs_perm hPv]
  have piece : GOK dftK (tag (ds :: sr)) (some (⟨ds.n, dv.is, dv.os⟩ :: vr)) (p.ii - p.ri) (p.io - p.ro) (decide (p.ri = p.ro)) fl.nd
      (fun I O st => c2.dftApply O (O + (p.io - p.ro)) O (O + (p.io - p.ro)) (c1.dftApply I (I + (p.ii - p.ri)) O (O + (p.io - p.ro)) st)) := by
    have := GOK_via (K := dftK) (szm := szm) (vm := vm) (δi := p.ii - p.ri) (δo := p.io - p.ro) (inpl := decide (p.ri = p.ro)) (nd := fl.nd) (nd2 := fl.nd)
      (f1 := fun I O => c1.dftApply I (I + (p.ii - p.ri)) O (O + (p.io - p.ro)))
      (f2 := fun I O => c2.dftApply I (I + (p.io - p.ro)) O (O + (p.io - p.ro))) ?_ ?_ ?_
    · rw [e_sz, e_v] at this; exact this
    · refine GOK.vec_congr hG1 ?_
      rw [append]
      apply pairs_perm
      refine List.Perm.trans ?_ ((modify_perm _ hdvm).append (modify_perm _ hdsm)).symm
      rw [hT1, hT2]
      simp only [vm, szm, List.map_cons, List.map_map, Function.comp_def, toMid, Dim.inplace]
      exact List.Perm.refl _
    · rw [e_fsz, e_fv]
      exact (hG2.sz_perm hPs.symm).vec_congr (pairs_perm hPv.symm)
    · rw [e_fsz, e_fv]
      rw [ins_eq, outs_eq, ← hloc, ← ins_eq, ← outs_eq]; exact hI2
  have hinpl : decide (p.ri = p.ro) = true → p.ii - p.ri = p.io - p.ro := fun h => by
    rw [(hip h).1, of_decide_eq_true h]
  have hall : ∀ (s l : List Dim), (∀ d ∈ s, d.is = d.os) → (∀ d ∈ l, d.is = d.os) → decide (p.ri = p.ro) = true →
      ins (locT ℂ (p.ii - p.ri) (p.io - p.ro) (tag s) (some l)) = outs (locT ℂ (p.ii - p.ri) (p.io - p.ro) (tag s) (some l)) := by
    intro s l hs hl h
    rw [hinpl h]
    apply ins_locT_eq
    rw [map_fst_tag, append]
    apply ins_eq_outs_of_inplace
    intro d hd
    rcases List.mem_append.1 hd with h | h
    · exact hs d h
    · exact hl d h
  have hds_sr : ∀ d ∈ ds :: sr, d.is = d.os := by
    intro d hd; rcases List.mem_cons.1 hd with rfl | h
    · exact hds'
    · exact hsr' d h
  have hcons : ∀ n, ∀ d ∈ (⟨n, dv.is, dv.os⟩ : Dim) :: vr, d.is = d.os := by
    intro n d hd; rcases List.mem_cons.1 hd with rfl | h
    · exact hdv'
    · exact hvr' d h
  have loop := GOK_loop (d := ⟨vl, (ds.n : ℤ) * dv.is, (ds.n : ℤ) * dv.os⟩) piece (hall _ _ hds_sr (hcons _)) (fun _ => by simp only [hdv'])
  have loop' := loop.vec_congr (vec := some (⟨vl * ds.n, dv.is, dv.os⟩ :: vr))
    (pairs_merge ⟨vl, (ds.n : ℤ) * dv.is, (ds.n : ℤ) * dv.os⟩ ⟨ds.n, dv.is, dv.os⟩ vr (by simp only []; ring) (by simp only []; ring)).symm
  have hrest := (hG3.sz_perm ((hps.map fun d => (d, ())).symm : (tag (ds :: sr)).Perm (tag p.sz))).vec_congr (pairs_perm (modify_perm _ hdv).symm)
  rw [ptr_shift_sub, ptr_shift_sub] at hrest
  have := GOK_concat loop' hrest (hall _ _ hds_sr (hcons _)) (hall _ _ hds_sr (hcons _)) ?_ ?_
  · have hn : vl * ds.n + (dv.n - vl * ds.n) = dv.n := Nat.add_sub_cancel' (Nat.div_mul_le_self _ _)
    rw [hn] at this
    rw [hv]
    refine ((this.sz_perm (hps.map fun d => (d, ()))).vec_congr (pairs_perm hpv)).congr ?_
    intro I O st
    have e1 : ∀ s : ℤ, (ds.n : ℤ) * s * (vl : ℤ) = ((vl * ds.n : ℕ) : ℤ) * s := by intro s; push_cast; ring
    simp only [Ptr.add_add, e1]
    congr 1
    · rw [add_comm]
    · rw [add_comm]
    · congr 1
      funext i st
      congr 1
      · rw [add_comm]
      · rw [add_comm]
      · congr 1
        · rw [add_comm]
        · rw [add_comm]
  · intro h
    rw [hdv'] at h ⊢
    rw [decide_eq_true_eq, ptr_add_inj] at h
    exact ⟨by simp [h], rfl⟩
  · intro h
    rw [hdv'] at h
    rw [decide_eq_false_iff_not, ptr_add_inj] at h
    left; simp [h]

end FFTW.DftS
