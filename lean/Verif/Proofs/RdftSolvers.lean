import Verif.Proofs.RdftProblem
import Verif.Proofs.Transpose
import Verif.Proofs.Primes2

namespace FFTW.RdftS
open Tensor Spec DftS Copy
variable [CLib]

/-! ### nop, vrank-geq1, rank-geq2, indirect -/

theorem nop_sound : nop.Sound := by
  apply rdftSolver_sound
  intro p fl hk
  split
  · rename_i h
    apply good_ret
    simp only [FFTW.Sound]
    rcases h with h | ⟨h1, l, h2, h3, h4⟩
    · rw [h]; exact GOK_empty rfl _ _ _ _
    · have : p.sz = [] := List.length_eq_zero_iff.1 h1
      rw [this, h2, show decide (p.I = p.O) = true by simp [h3]]
      exact GOK_nop h4 _ _ _
  · exact good_nada

theorem apart_vec {sz : List Dim} {vec vec' : Tensor} {I O : Ptr} (h : Apart (append (some sz) vec) I O)
    (hs : ∀ x ∈ pairs vec', x ∈ pairs vec) : Apart (append (some sz) vec') I O := by
  have h' : Apart (locT ℝ 0 0 (tag sz) vec) I O := by rw [apart_real, map_fst_tag]; exact h
  have := h'.vec_mono hs
  rw [apart_real, map_fst_tag] at this
  exact this

theorem vrankGeq1_sound (vecloopDim : Int) (buddies : List Int) (taste : Taste) : (vrankGeq1 vecloopDim buddies taste).Sound := by
  apply rdftSolver_sound
  intro p fl hk
  obtain ⟨hn0, hap, hvp, hip⟩ := kosher_rdft hk
  split
  · exact good_nada
  rename_i v hv
  split
  rotate_left
  · exact good_nada
  split
  · exact good_nada
  rename_i vdim hpick
  split
  rotate_left
  · exact good_nada
  split
  · exact good_nada
  rename_i d hd
  obtain ⟨d', hd', hs⟩ := pickdim_spec hpick
  rw [hd] at hd'
  obtain rfl := Option.some.inj hd'
  have hperm := eraseIdx_perm hd
  apply good_need
  · refine kosher_mkproblemRdft hn0 (fun hne => ?_) ?_
    · refine apart_vec (hap hne) fun x hx => ?_
      rw [hv, pairs_perm hperm]
      exact mem_pairs_of_pos (hvp v hv d (List.mem_of_getElem? hd)) hx
    · intro he _ ht _
      obtain ⟨h1, h2⟩ := hk.2 he ht v hv
      refine ⟨h1, ?_⟩
      rintro _ ⟨⟩ x hx _
      exact h2 x (hperm.mem_iff.2 (by simp [hx]))
  intro c hc
  rw [modify_default] at hc
  obtain ⟨hG, hI⟩ := sound_mkproblemRdft hn0 hc
  apply good_ret
  refine soundRdft (by simp [hv]) ?_
  rw [hv]
  apply GOK.vec_congr _ (pairs_perm hperm)
  refine GOK_loop (d := d) hG (fun h => hI (of_decide_eq_true h)) ?_
  intro h
  rcases hs with hs | hs
  · simp at h hs; exact absurd h hs
  · exact hs

theorem posK_inpl {k : InplaceKind} {sz : List (Dim × RKind)} (h : PosK sz) : PosK (inplKinds k sz) := by
  intro e he
  obtain ⟨e', he', rfl⟩ := List.mem_map.1 he
  have := h e' he'
  simpa using this

omit [CLib] in
theorem inplace_same (k : InplaceKind) (d : Dim) : (d.inplace k).is = (d.inplace k).os := by cases k <;> rfl

omit [CLib] in
theorem same_copyInplace (k : InplaceKind) (T : Tensor) : Same (copyInplace k T) := by
  intro l hl d hd _
  cases T with
  | none => simp [copyInplace] at hl
  | some l0 =>
    simp only [copyInplace, Option.map_some, Option.some.injEq] at hl
    subst hl
    obtain ⟨x, _, rfl⟩ := List.mem_map.1 hd
    exact inplace_same _ _

omit [CLib] in
theorem same_map_inplace (k : InplaceKind) (l : List Dim) : Same (some (l.map (Dim.inplace k))) := same_copyInplace k (some l)

omit [CLib] in
theorem same_append {a b : Tensor} (ha : Same a) (hb : Same b) : Same (append a b) := by
  intro l hl d hd hn
  cases a with
  | none => simp [append] at hl
  | some a =>
    cases b with
    | none => simp [append] at hl
    | some b =>
      simp only [append, Option.some.injEq] at hl
      subst hl
      rcases List.mem_append.1 hd with hd | hd
      · exact ha a rfl d hd hn
      · exact hb b rfl d hd hn

theorem noTr_inplKinds {k : InplaceKind} {sz : List (Dim × RKind)} {vec : Tensor} {I O : Ptr} (h : Same vec) : NoTr (inplKinds k sz) vec I O := by
  intro _ _ _ _
  refine ⟨?_, h⟩
  intro e he _
  obtain ⟨e', he', rfl⟩ := List.mem_map.1 he
  exact inplace_same _ _

theorem inplKinds_eq (k : InplaceKind) (sz : List (Dim × RKind)) : inplKinds k sz = sz.map (inpl1 k) := rfl

omit [CLib] in
theorem apart_move {sz1 sz2 : List (Dim × RKind)} {vec : Tensor} {I O : Ptr} (h : Apart (append (some ((sz1 ++ sz2).map Prod.fst)) vec) I O) :
    Apart (append (some (sz2.map Prod.fst)) (append vec (some (sz1.map Prod.fst)))) I O := by
  refine h.of_pairs ?_
  have := pairs_locT_move (V := ℝ) 0 0 sz1 sz2 vec
  rwa [pairs_locT_real, pairs_locT_real] at this

theorem rankGeq2_sound (spltrnk : Int) (buddies : List Int) (taste : Taste) : (rankGeq2 spltrnk buddies taste).Sound := by
  apply rdftSolver_sound
  intro p fl hk
  obtain ⟨hn0, hap, hvp, hip⟩ := kosher_rdft hk
  dsimp only
  split
  rotate_left
  · exact good_nada
  rename_i hv0
  split
  · exact good_nada
  rename_i r hr
  split
  rotate_left
  · exact good_nada
  set sz1 := p.sz.take (r + 1) with hsz1
  set sz2 := p.sz.drop (r + 1) with hsz2
  have hsz : p.sz = sz1 ++ sz2 := (List.take_append_drop _ _).symm
  have hp1 : PosK sz1 := hn0.sub fun e he => List.mem_of_mem_take he
  have hp2 : PosK sz2 := hn0.sub fun e he => List.mem_of_mem_drop he
  apply good_need
  · refine kosher_mkproblemRdft hp2 (fun hne => ?_) ?_
    · have := hap hne
      rw [hsz] at this
      exact apart_move this
    · rintro he _ ⟨e, he2, ht⟩ _
      obtain ⟨v0, hv1⟩ := Option.isSome_iff_exists.1 (show p.vecsz.isSome = true by simpa using hv0.1)
      obtain ⟨h1, h2⟩ := hk.2 he ⟨e, List.mem_of_mem_drop he2, ht⟩ v0 hv1
      refine ⟨fun x hx => h1 x (List.mem_of_mem_drop hx), ?_⟩
      intro l hl d hd h1n
      cases hvv : p.vecsz with
      | none => simp [hvv, append] at hl
      | some v =>
        rw [hvv] at hl
        simp only [append, Option.some.injEq] at hl
        subst hl
        rcases List.mem_append.1 hd with hd | hd
        · exact h2 d (by rw [hv1] at hvv; rw [Option.some.inj hvv]; exact hd)
        · obtain ⟨x, hx, rfl⟩ := List.mem_map.1 hd
          exact h1 x (List.mem_of_mem_take hx) h1n
  intro c1 h1
  rw [modify_default] at h1
  obtain ⟨hG1, _⟩ := sound_mkproblemRdft hp2 h1
  apply good_need
  · exact kosher_mkproblemRdft (posK_inpl hp1) (fun h => absurd rfl h) (noTr_inplKinds (by
      apply same_append
      · exact same_copyInplace _ _
      · exact same_map_inplace _ _))
  intro c2 h2
  rw [modify_default] at h2
  obtain ⟨hG2, _⟩ := sound_mkproblemRdft (posK_inpl hp1) h2
  apply good_ret
  refine soundRdft hv0.1 ?_
  rw [show decide (p.O = p.O) = true by simp, inplKinds_eq] at hG2
  rw [hsz]
  exact GOK_split (sz1 := sz1) (sz2 := sz2) (nd2 := fl.nd) hG1 hG2

theorem indirect_sound (after : Bool) (taste : Taste) : (indirect after taste).Sound := by
  apply rdftSolver_sound
  intro p fl hk
  obtain ⟨hn0, hap, hvp, hip⟩ := kosher_rdft hk
  have hnil : PosK [] := by intro e he; simp at he
  split
  · exact good_nada
  rename_i v hv
  split
  rotate_left
  · exact good_nada
  rename_i happ
  apply good_need
  · refine kosher_mkproblemRdft hnil (fun hne => ?_) (by rintro _ _ ⟨e, he, _⟩ _; simp at he)
    have := hap hne
    rw [← List.append_nil p.sz] at this
    exact apart_move this
  intro c1 h1
  rw [modify_default] at h1
  obtain ⟨hG1, _⟩ := sound_mkproblemRdft hnil h1
  cases after with
  | true =>
    simp only [if_true]
    apply good_need
    · exact kosher_mkproblemRdft (posK_inpl hn0) (fun h => absurd rfl h) (noTr_inplKinds (same_copyInplace _ _))
    intro c2 h2
    obtain ⟨hG2, _⟩ := sound_mkproblemRdft (posK_inpl hn0) h2
    apply good_ret
    refine soundRdft (by simp [hv]) ?_
    rw [show decide (p.I = p.I) = true by simp, inplKinds_eq] at hG2
    refine GOK_copyLast (nd1 := (fl.modify { lset := NO_BUFFERING }).nd) (nd2 := fl.nd) hG2 hG1 ?_ ?_
    · obtain ⟨happ, _⟩ := happ
      simp only [indirectApplicable, Bool.and_eq_true, Bool.or_eq_true, decide_eq_true_eq, Bool.not_eq_true', Bool.not_true] at happ
      by_cases h : p.I = p.O
      · right; simp [h]
      · left
        rcases happ.2 with (h' | h') | h'
        · exact absurd h'.1 h
        · exact h'.1.1.2
        · simp at h'
    · intro h; exact Or.inl h
  | false =>
    simp only [Bool.false_eq_true, if_false]
    apply good_need
    · exact kosher_mkproblemRdft (posK_inpl hn0) (fun h => absurd rfl h) (noTr_inplKinds (same_copyInplace _ _))
    intro c2 h2
    rw [nd_noBuffering] at h2
    obtain ⟨hG2, _⟩ := sound_mkproblemRdft (posK_inpl hn0) h2
    apply good_ret
    refine soundRdft (by simp [hv]) ?_
    rw [show decide (p.O = p.O) = true by simp, inplKinds_eq] at hG2
    have := GOK_split (sz1 := p.sz) (sz2 := []) (vec := p.vecsz) (nd2 := fl.nd) (nd := fl.nd) (inpl := decide (p.I = p.O)) (δi := 0) (δo := 0) (K := rK) hG1
      (f2 := c2.rdftApply) ?_
    · rwa [List.append_nil] at this
    · have e : append (copyInplace .OS p.vecsz) (some ((List.map Prod.fst ([] : List (Dim × RKind))).map (Dim.inplace .OS))) = copyInplace .OS p.vecsz := by
        rw [hv]; simp [copyInplace, append]
      rw [e]; exact hG2

/-! ### rank0 -/

omit [CLib] in
theorem perm_last (l : List Dim) (a : Dim) : (l ++ [a]).Perm (a :: l) := List.perm_append_comm

theorem fillIodim_pairs (l : List Dim) : ∀ (vl : ℕ) (acc : List Dim) (vl' : ℕ) (d : List Dim), fillIodim vl acc l = some (vl', d) →
    pairs (some (d ++ [⟨vl', 1, 1⟩])) = pairs (some (acc ++ l ++ [⟨vl, 1, 1⟩])) := by
  induction l with
  | nil => intro vl acc vl' d h; simp [fillIodim] at h; obtain ⟨rfl, rfl⟩ := h; simp
  | cons a l ih =>
    intro vl acc vl' d h
    unfold fillIodim at h
    split at h
    · rename_i hc
      obtain ⟨rfl, h1, h2⟩ := hc
      rw [ih _ _ _ _ h]
      have ea : a = ⟨a.n, 1, 1⟩ := by cases a; simp_all
      have e1 : pairs (some (acc ++ a :: l ++ [⟨1, 1, 1⟩])) = pairs (some (acc ++ a :: l)) := by
        rw [pairs_perm (perm_last _ _), pairs_cons_one rfl]
      rw [e1, ← ea]
      apply pairs_perm
      refine (perm_last _ _).trans ?_
      exact List.perm_middle.symm
    · split at h
      · simp at h
      · rw [ih _ _ _ _ h]; simp

theorem fillIodim_pos (l : List Dim) : ∀ (vl : ℕ) (acc : List Dim) (vl' : ℕ) (d : List Dim), fillIodim vl acc l = some (vl', d) →
    0 < vl → Pos acc → Pos l → 0 < vl' ∧ Pos d := by
  induction l with
  | nil => intro vl acc vl' d h hv ha _; simp [fillIodim] at h; obtain ⟨rfl, rfl⟩ := h; exact ⟨hv, ha⟩
  | cons a l ih =>
    intro vl acc vl' d h hv ha hl
    have hl' : Pos l := hl.sub fun d hd => by simp [hd]
    unfold fillIodim at h
    split at h
    · exact ih _ _ _ _ h (hl a (by simp)) ha hl'
    · split at h
      · simp at h
      · refine ih _ _ _ _ h hv ?_ hl'
        intro e he
        rcases List.mem_append.1 he with he | he
        · exact ha e he
        · simp at he; rw [he]; exact hl a (by simp)

/-- the (source, destination) pairs described by a list of dimensions -/
def mapL (I O : Ptr) (l : List Dim) : Set (Ptr × Ptr) := {e | ∃ ab ∈ pairs (some l), e = (I + ab.1, O + ab.2)}

omit [CLib] in
theorem GOK_of_copies {l : List Dim} {inpl nd : Bool} {f : Ptr → Ptr → State → State}
    (h : (outs (some l)).Nodup → ∀ I O st, Compat (some l) inpl I O st → Copies (mapL I O l) st (f I O st)) :
    GOK rK [] (some l) 0 0 inpl nd f := by
  have hp : pairs (locT ℝ 0 0 ([] : List (Dim × RKind)) (some l)) = pairs (some l) := by rw [pairs_locT_real]; rfl
  have hi : ins (locT ℝ 0 0 ([] : List (Dim × RKind)) (some l)) = ins (some l) := by rw [ins_eq, ins_eq, hp]
  have ho : outs (locT ℝ 0 0 ([] : List (Dim × RKind)) (some l)) = outs (some l) := by rw [outs_eq, outs_eq, hp]
  intro wf I O st hc
  have hc' : Compat (some l) inpl I O st := ⟨hc.blkI, hc.blkO, hc.same, by rw [← hi, ← ho]; exact hc.disj⟩
  have hcp := h (by rw [← ho]; exact wf.out) I O st hc'
  refine ⟨⟨hcp.next, fun q hq hn => hcp.other q hq ?_⟩, ?_⟩
  · rintro e ⟨ab, hab, rfl⟩ rfl
    apply hn
    left
    rw [ho]
    exact ⟨ab.2, mem_outs.2 ⟨ab.1, hab⟩, rfl⟩
  · intro dk hdk ab hab
    obtain rfl : dk = [] := List.map_eq_nil_iff.1 hdk.1
    have := hcp.copied _ ⟨ab, hab, rfl⟩
    simpa [gSum, val, Elt.dec] using this

omit [CLib] in
theorem mapL_below {N : ℕ} {I O : Ptr} {l : List Dim} (hI : I.blk < N) (hO : O.blk < N) : Below N (mapL I O l) := by
  rintro e ⟨ab, _, rfl⟩; exact ⟨hI, hO⟩

omit [CLib] in
theorem mapL_func {I O : Ptr} {l : List Dim} (h : (outs (some l)).Nodup) : ∀ e ∈ mapL I O l, ∀ e' ∈ mapL I O l, e.2 = e'.2 → e.1 = e'.1 := by
  rintro e ⟨ab, hab, rfl⟩ e' ⟨ab', hab', rfl⟩ he
  rw [outs_eq] at h
  have h2 : ab.2 = ab'.2 := by simpa using he
  have := Multiset.inj_on_of_nodup_map h ab hab ab' hab' h2
  rw [this]

omit [CLib] in
theorem mapL_oop {I O : Ptr} {l : List Dim} {st : State} (h : (outs (some l)).Nodup) (hc : Compat (some l) false I O st) : OutOfPlace (mapL I O l) := by
  refine ⟨?_, mapL_func h⟩
  rintro e ⟨ab, hab, rfl⟩ e' ⟨ab', hab', rfl⟩
  exact hc.disj rfl _ (mem_ins.2 ⟨ab'.2, hab'⟩) _ (mem_outs.2 ⟨ab.1, hab⟩)

omit [CLib] in
theorem mapL_three (I O : Ptr) (a b : Dim) (vl : ℕ) : mapL I O [a, b, ⟨vl, 1, 1⟩] = map2d I O a.n a.is a.os b.n b.is b.os vl := by
  ext e; constructor
  · rintro ⟨ab, hab, rfl⟩
    obtain ⟨i, hi, q, hq, rfl⟩ := mem_pairs_cons.1 hab
    obtain ⟨j, hj, q', hq', rfl⟩ := mem_pairs_cons.1 hq
    obtain ⟨v, hv, q'', hq'', rfl⟩ := mem_pairs_cons.1 hq'
    obtain rfl : q'' = 0 := by simpa [pairs, offs] using hq''
    exact ⟨i, j, v, hi, hj, hv, by simp [add_assoc]⟩
  · rintro ⟨i, j, v, hi, hj, hv, rfl⟩
    refine ⟨_, mem_pairs_cons.2 ⟨i, hi, _, mem_pairs_cons.2 ⟨j, hj, _, mem_pairs_cons.2 ⟨v, hv, 0, by simp [pairs, offs], rfl⟩, rfl⟩, rfl⟩, ?_⟩
    simp [add_assoc]
omit [CLib] in
theorem mapL_two (I O : Ptr) (a : Dim) (vl : ℕ) : mapL I O [a, ⟨vl, 1, 1⟩] = map1d I O a.n a.is a.os vl := by
  ext e; constructor
  · rintro ⟨ab, hab, rfl⟩
    obtain ⟨i, hi, q, hq, rfl⟩ := mem_pairs_cons.1 hab
    obtain ⟨v, hv, q'', hq'', rfl⟩ := mem_pairs_cons.1 hq
    obtain rfl : q'' = 0 := by simpa [pairs, offs] using hq''
    exact ⟨i, v, hi, hv, by simp⟩
  · rintro ⟨i, v, hi, hv, rfl⟩
    exact ⟨_, mem_pairs_cons.2 ⟨i, hi, _, mem_pairs_cons.2 ⟨v, hv, 0, by simp [pairs, offs], rfl⟩, rfl⟩, by simp⟩
omit [CLib] in
theorem mapL_one (I O : Ptr) (vl : ℕ) : mapL I O [⟨vl, 1, 1⟩] = tuple I O vl := by
  ext e; constructor
  · rintro ⟨ab, hab, rfl⟩
    obtain ⟨v, hv, q'', hq'', rfl⟩ := mem_pairs_cons.1 hab
    obtain rfl : q'' = 0 := by simpa [pairs, offs] using hq''
    exact ⟨v, hv, by simp⟩
  · rintro ⟨v, hv, rfl⟩
    exact ⟨_, mem_pairs_cons.2 ⟨v, hv, 0, by simp [pairs, offs], rfl⟩, by simp⟩

omit [CLib] in
theorem inj2_of_nodup {a b : Dim} {vl : ℕ} (h : (outs (some [a, b, ⟨vl, 1, 1⟩])).Nodup) : Inj2 a.n a.os b.n b.os vl := by
  intro i j v i' j' v' hi hj hv hi' hj' hv' e
  have e1 : outs (some [a, b, ⟨vl, 1, 1⟩]) = (Multiset.range a.n).bind fun i : ℕ => (offs [(b.n, b.os), (vl, (1 : ℤ))]).map fun x => (i : ℤ) * a.os + x := by
    simp only [outs, List.map_cons, List.map_nil]
    rw [offs]
    simp only [nsmul_eq_mul]
  rw [e1] at h
  obtain ⟨h2, h3⟩ := pieces_nodup (s := fun i : ℕ => (i : ℤ) * a.os) (S := fun _ => offs [(b.n, b.os), (vl, (1 : ℤ))]) h
  have m1 : (j : ℤ) * b.os + (v : ℤ) * 1 ∈ offs [(b.n, b.os), (vl, (1 : ℤ))] := mem_offs2.2 ⟨j, hj, v, hv, rfl⟩
  have m2 : (j' : ℤ) * b.os + (v' : ℤ) * 1 ∈ offs [(b.n, b.os), (vl, (1 : ℤ))] := mem_offs2.2 ⟨j', hj', v', hv', rfl⟩
  have hii : i = i' := by
    by_contra hne
    exact h3 i hi i' hi' hne _ m1 _ m2 (by linarith)
  subst hii
  have := nodup2_inj (h2 i hi) hj hj' hv hv' (by linarith)
  exact ⟨rfl, this.1, this.2⟩

omit [CLib] in
/-- out-of-place copies in two dimensions -/
theorem GOK_cpy2d {cpy : Ptr → Ptr → ℕ → ℤ → ℤ → ℕ → ℤ → ℤ → ℕ → State → State} {a b : Dim} {vl : ℕ} {nd : Bool}
    (h : ∀ (I O : Ptr) (N : ℕ), OutOfPlace (map2d I O a.n a.is a.os b.n b.is b.os vl) → Inj2 a.n a.os b.n b.os vl → I.blk < N → O.blk < N →
      Does N N (map2d I O a.n a.is a.os b.n b.is b.os vl) (cpy I O a.n a.is a.os b.n b.is b.os vl)) :
    GOK rK [] (some [a, b, ⟨vl, 1, 1⟩]) 0 0 false nd (fun I O => cpy I O a.n a.is a.os b.n b.is b.os vl) := by
  apply GOK_of_copies
  intro hn I O st hc
  have ho := mapL_oop hn hc
  rw [mapL_three] at ho ⊢
  exact (h I O st.next ho (inj2_of_nodup hn) hc.blkI hc.blkO).copies

theorem GOK_copyR {cpy : Ptr → Ptr → ℕ → ℤ → ℤ → ℕ → ℤ → ℤ → ℕ → State → State} {vl : ℕ} {nd : Bool}
    (h : ∀ a b : Dim, GOK rK [] (some [a, b, ⟨vl, 1, 1⟩]) 0 0 false nd (fun I O => cpy I O a.n a.is a.os b.n b.is b.os vl)) :
    ∀ d : List Dim, 2 ≤ d.length → GOK rK [] (some (d ++ [⟨vl, 1, 1⟩])) 0 0 false nd (copyR cpy vl d)
  | [], hd => by simp at hd
  | [_], hd => by simp at hd
  | [a, b], _ => h a b
  | a :: b :: c :: l, _ => by
    have ih := GOK_copyR h (b :: c :: l) (by simp)
    exact GOK_loop (d := a) ih (by simp) (by simp)

theorem GOK_memcpy (vl : ℕ) (nd : Bool) : GOK rK [] (some [⟨vl, 1, 1⟩]) 0 0 false nd (RdftS.memcpy vl) := by
  apply GOK_of_copies
  intro hn I O st hc
  rw [mapL_one]
  unfold RdftS.memcpy
  have key : ∀ n ≤ vl, Copies (tuple I O n) st (forN n (fun i s => s.set (O + (i : ℤ)) (st.mem (I + (i : ℤ)))) st) := by
    intro n
    induction n with
    | zero => intro _; exact ⟨le_refl _, by rintro e ⟨v, hv, _⟩; omega, fun _ _ _ => rfl⟩
    | succ n ih =>
      intro hn
      obtain ⟨h1, h2, h3⟩ := ih (by omega)
      rw [forN_succ]
      refine ⟨h1, ?_, ?_⟩
      · rintro e ⟨v, hv, rfl⟩
        by_cases hvn : v = n
        · subst hvn; rw [State.set_mem_same]
        · rw [State.set_mem_ne _ (by simpa using hvn)]
          exact h2 _ ⟨v, by omega, rfl⟩
      · intro q hq hne
        rw [State.set_mem_ne _ (hne (I + (n : ℤ), O + (n : ℤ)) ⟨n, by omega, rfl⟩)]
        exact h3 q hq fun e ⟨v, hv, he⟩ => hne e ⟨v, by omega, he⟩
  exact key vl (le_refl _)

theorem GOK_memcpyLoop (vl : ℕ) (nd : Bool) : ∀ d : List Dim, 1 ≤ d.length →
    GOK rK [] (some (d ++ [⟨vl, 1, 1⟩])) 0 0 false nd (RdftS.memcpyLoop vl d)
  | [], hd => by simp at hd
  | [a], _ => GOK_loop (d := a) (GOK_memcpy vl nd) (by simp) (by simp)
  | a :: b :: l, _ => by
    have ih := GOK_memcpyLoop vl nd (b :: l) (by simp)
    exact GOK_loop (d := a) ih (by simp) (by simp)

theorem GOK_cpy1d (a : Dim) (vl : ℕ) (nd : Bool) : GOK rK [] (some [a, ⟨vl, 1, 1⟩]) 0 0 false nd (fun I O => cpy1d I O a.n a.is a.os vl) := by
  apply GOK_of_copies
  intro hn I O st hc
  have ho := mapL_oop hn hc
  have hb := mapL_below (I := I) (O := O) (l := [a, ⟨vl, 1, 1⟩]) hc.blkI hc.blkO
  rw [mapL_two] at ho hb ⊢
  exact (does_cpy1d ho hb).copies

/-! transposition in place -/

omit [CLib] in
theorem ins_transposep : ∀ (d : List Dim) (t : List Dim), transposep d = true → (∀ e ∈ t, e.is = e.os) → ins (some (d ++ t)) = outs (some (d ++ t))
  | [], _, h, _ => by simp [transposep] at h
  | [_], _, h, _ => by simp [transposep] at h
  | [a, b], t, h, ht => by
    simp only [transposep, Bool.and_eq_true, decide_eq_true_eq] at h
    have e1 : (([a, b] ++ t).map fun d => (d.n, d.is)) = (a.n, a.is) :: (a.n, a.os) :: t.map fun d => (d.n, d.is) := by simp [h.1.1, h.2]
    have e2 : (([a, b] ++ t).map fun d => (d.n, d.os)) = (a.n, a.os) :: (a.n, a.is) :: t.map fun d => (d.n, d.os) := by simp [h.1.1, h.1.2]
    have e3 : (t.map fun d => (d.n, d.is)) = t.map fun d => (d.n, d.os) := List.map_congr_left fun e he => by rw [ht e he]
    simp only [ins, outs]
    rw [e1, e2, e3]
    exact offs_perm (List.Perm.swap _ _ _)
  | a :: b :: c :: l, t, h, ht => by
    have hh : transposep (a :: b :: c :: l) = (decide (a.is = a.os) && transposep (b :: c :: l)) := rfl
    rw [hh, Bool.and_eq_true, decide_eq_true_eq] at h
    have ih := ins_transposep (b :: c :: l) t h.2 ht
    simp only [ins, outs] at ih ⊢
    rw [List.cons_append, List.map_cons, List.map_cons, offs, offs, ih, h.1]

omit [CLib] in
theorem inpl_vl (vl : ℕ) : ∀ e ∈ [(⟨vl, 1, 1⟩ : Dim)], e.is = e.os := by simp

omit [CLib] in
theorem inpl_ins (d : List Dim) (vl : ℕ) (h : transposep d = true) :
    ins (locT ℝ 0 0 ([] : List (Dim × RKind)) (some (d ++ [⟨vl, 1, 1⟩]))) = outs (locT ℝ 0 0 ([] : List (Dim × RKind)) (some (d ++ [⟨vl, 1, 1⟩]))) := by
  rw [ins_locT_real, outs_locT_real]
  exact ins_transposep d _ h (inpl_vl vl)

omit [CLib] in
theorem GOK_tr2 {tr : Ptr → ℕ → ℤ → ℤ → ℕ → State → State} {a b : Dim} {vl : ℕ} {nd : Bool}
    (h : ∀ (I : Ptr) (N : ℕ), Inj2 a.n a.is a.n a.os vl → I.blk < N → Does N N (mapT I a.n a.is a.os vl) (tr I a.n a.is a.os vl))
    (ht : transposep [a, b] = true) :
    GOK rK [] (some [a, b, ⟨vl, 1, 1⟩]) 0 0 true nd (fun I _ => tr I a.n a.is a.os vl) := by
  simp only [transposep, Bool.and_eq_true, decide_eq_true_eq] at ht
  apply GOK_of_copies
  intro hn I O st hc
  obtain rfl := hc.same rfl
  rw [mapL_three]
  have hinj : Inj2 a.n a.is a.n a.os vl := by
    have h1 := inj2_of_nodup hn
    intro i j v i' j' v' hi hj hv hi' hj' hv' e
    have := h1 j i v j' i' v' hj (by rw [← ht.1.1]; exact hi) hv hj' (by rw [← ht.1.1]; exact hi') hv' (by rw [← ht.1.2]; linarith)
    exact ⟨this.2.1, this.1, this.2.2⟩
  have := (h I st.next hinj hc.blkI).copies
  have e : mapT I a.n a.is a.os vl = map2d I I a.n a.is a.os b.n b.is b.os vl := by
    unfold mapT; rw [← ht.1.1, ← ht.1.2, ← ht.2]
  rw [e] at this
  exact this

theorem GOK_transposeR {tr : Ptr → ℕ → ℤ → ℤ → ℕ → State → State} {vl : ℕ} {nd : Bool}
    (h : ∀ (a : Dim) (I : Ptr) (N : ℕ), Inj2 a.n a.is a.n a.os vl → I.blk < N → Does N N (mapT I a.n a.is a.os vl) (tr I a.n a.is a.os vl)) :
    ∀ d : List Dim, transposep d = true → GOK rK [] (some (d ++ [⟨vl, 1, 1⟩])) 0 0 true nd (fun I _ => transposeR tr vl d I)
  | [], hd => by simp [transposep] at hd
  | [_], hd => by simp [transposep] at hd
  | [a, b], hd => GOK_tr2 (h a) hd
  | a :: b :: c :: l, hd => by
    have hh : transposep (a :: b :: c :: l) = (decide (a.is = a.os) && transposep (b :: c :: l)) := rfl
    rw [hh, Bool.and_eq_true, decide_eq_true_eq] at hd
    have ih := GOK_transposeR (nd := nd) h (b :: c :: l) hd.2
    exact GOK_loop (d := a) ih (fun _ => inpl_ins _ _ hd.2) (fun _ => hd.1)

omit [CLib] in
theorem tile_ok {szR vl k : ℕ} (h : gt4 (computeTilesz szR vl k) = true) (hk : k = 1 ∨ k = 2) :
    ∃ t : ℕ, 0 < t ∧ computeTilesz szR vl 2 = some (t : ℤ) := by
  have key : ∀ k, computeTilesz szR vl k = some (Nat.sqrt (CACHESIZE / (szR * vl * k)) : ℤ) := by
    intro k
    refine Primes.isqrt_some ?_
    have : CACHESIZE / (szR * vl * k) ≤ CACHESIZE := Nat.div_le_self _ _
    have h2 : (CACHESIZE : ℤ) = 8192 := rfl
    have h3 : ((CACHESIZE / (szR * vl * k) : ℕ) : ℤ) ≤ CACHESIZE := by exact_mod_cast this
    have : (8192 : ℤ) < INT_MAX := by decide
    omega
  refine ⟨_, ?_, key 2⟩
  rw [key k] at h
  simp only [gt4, decide_eq_true_eq] at h
  have h5 : 4 < Nat.sqrt (CACHESIZE / (szR * vl * k)) := by exact_mod_cast h
  have h25 : 5 * 5 ≤ CACHESIZE / (szR * vl * k) := Nat.le_sqrt.1 h5
  rw [Nat.sqrt_pos]
  set s := szR * vl with hs
  have hs0 : 0 < s := by
    by_contra hc
    have : s = 0 := by omega
    rw [this] at h25; simp at h25
  rw [Nat.le_div_iff_mul_le (by rcases hk with rfl | rfl <;> omega)] at h25
  apply Nat.div_pos _ (by omega)
  rcases hk with rfl | rfl <;> omega

theorem rank0_sound (szR : ℕ) (alg : Rank0) : (rank0 szR alg).Sound := by
  apply rdftSolver_sound
  intro p fl hk
  obtain ⟨hn0, hap, hvp, hip⟩ := kosher_rdft hk
  split
  rotate_left
  · exact good_nada
  rename_i v hsz hv
  split
  rotate_left
  · exact good_nada
  rename_i vl d hf
  split
  rotate_left
  · exact good_nada
  rename_i happ
  apply good_ret
  refine soundRdft (by simp [hv]) ?_
  rw [hsz, hv]
  have hpairs : pairs (some v) = pairs (some (d ++ [⟨vl, 1, 1⟩])) := by
    rw [fillIodim_pairs _ _ _ _ _ hf, List.nil_append, pairs_perm (perm_last _ _), pairs_cons_one rfl]
  apply GOK.vec_congr _ hpairs
  have oop : ∀ {b : Bool}, (decide (p.I ≠ p.O) && b) = true → decide (p.I = p.O) = false ∧ b = true := by
    intro b h; simp only [Bool.and_eq_true, decide_eq_true_eq] at h; exact ⟨by simp [h.1], h.2⟩
  have wt : ∀ {k : ℕ}, gt4 (computeTilesz szR vl k) = true → (k = 1 ∨ k = 2) → ∃ (t : ℕ) (ht : 0 < t), ∀ f, withTile (computeTilesz szR vl 2) f = f t ht := by
    intro k h hk
    obtain ⟨t, ht, e⟩ := tile_ok h hk
    refine ⟨t, ht, fun f => ?_⟩
    funext st
    rw [e]; simp [withTile, ht]
  cases alg with
  | memcpy =>
    simp only [Rank0.applicable, Bool.and_eq_true, decide_eq_true_eq] at happ
    have : d = [] := List.length_eq_zero_iff.1 happ.1.2
    subst this
    rw [show decide (p.I = p.O) = false by simp [happ.1.1]]
    exact GOK_memcpy vl _
  | memcpyLoop =>
    simp only [Rank0.applicable, Bool.and_eq_true, decide_eq_true_eq] at happ
    rw [show decide (p.I = p.O) = false by simp [happ.1.1]]
    exact GOK_memcpyLoop vl _ d happ.1.2
  | iterCi =>
    simp only [Rank0.applicable, decide_eq_true_eq] at happ
    rw [show decide (p.I = p.O) = false by simp [happ]]
    match d with
    | [] =>
      refine GOK.vec_congr (GOK_cpy1d ⟨vl, 1, 1⟩ 1 _) ?_
      exact (pairs_cons_one (d := ⟨1, 1, 1⟩) rfl [⟨vl, 1, 1⟩]).symm.trans (pairs_perm (List.Perm.swap _ _ _))
    | [a] => exact GOK_cpy1d a vl _
    | a :: b :: l =>
      refine (GOK_copyR (cpy := cpy2dCi) (vl := vl) (nd := fl.nd) ?_ (a :: b :: l) (by simp)).congr fun I O st => rfl
      intro a b
      exact GOK_cpy2d fun I O N ho _ hI hO => does_cpy2dCi ho (below_map2d hI hO)
  | iterCo =>
    simp only [Rank0.applicable, Bool.and_eq_true, decide_eq_true_eq] at happ
    rw [show decide (p.I = p.O) = false by simp [happ.1.1]]
    refine GOK_copyR ?_ d happ.1.2
    intro a b
    exact GOK_cpy2d fun I O N ho _ hI hO => does_cpy2dCo ho (below_map2d hI hO)
  | tiled =>
    simp only [Rank0.applicable, Bool.and_eq_true, decide_eq_true_eq] at happ
    rw [show decide (p.I = p.O) = false by simp [happ.1.1]]
    obtain ⟨t, ht, hw⟩ := wt happ.2 (Or.inl rfl)
    refine GOK_copyR ?_ d happ.1.2
    intro a b
    refine GOK_cpy2d fun I O N ho _ hI hO => ?_
    unfold cpy2dTiledSz
    rw [hw]
    exact does_cpy2dTiled ho (below_map2d hI hO)
  | tiledbuf =>
    simp only [Rank0.applicable, Bool.and_eq_true, decide_eq_true_eq] at happ
    rw [show decide (p.I = p.O) = false by simp [happ.1.1]]
    obtain ⟨t, ht, hw⟩ := wt happ.2 (Or.inl rfl)
    refine GOK_copyR ?_ d happ.1.2
    intro a b
    refine GOK_cpy2d fun I O N ho hinj hI hO => ?_
    unfold cpy2dTiledbufSz
    rw [hw]
    exact does_cpy2dTiledbuf ho hinj hI hO
  | ipSq =>
    simp only [Rank0.applicable, Bool.and_eq_true, decide_eq_true_eq] at happ
    rw [show decide (p.I = p.O) = true by simp [happ.1.1]]
    exact GOK_transposeR (fun a I N h hI => does_transpose h hI) d happ.2
  | ipSqTiled =>
    simp only [Rank0.applicable, Bool.and_eq_true, decide_eq_true_eq] at happ
    rw [show decide (p.I = p.O) = true by simp [happ.1.1.1]]
    obtain ⟨t, ht, hw⟩ := wt happ.2 (Or.inr rfl)
    refine GOK_transposeR (fun a I N h hI => ?_) d happ.1.2
    unfold transposeTiledSz
    rw [hw]
    exact does_transposeTiled h hI
  | ipSqTiledbuf =>
    simp only [Rank0.applicable, Bool.and_eq_true, decide_eq_true_eq] at happ
    rw [show decide (p.I = p.O) = true by simp [happ.1.1.1]]
    obtain ⟨t, ht, hw⟩ := wt happ.2 (Or.inr rfl)
    refine GOK_transposeR (fun a I N h hI => ?_) d happ.1.2
    unfold transposeTiledbufSz
    rw [hw]
    exact does_transposeTiledbuf h hI

end FFTW.RdftS
