import Verif.Spec.Codelet
import Verif.Proofs.DftCt
import Verif.Proofs.DftwGeneric
import Verif.Proofs.GenBuf
import Verif.Proofs.Copy
import Verif.Proofs.ApiExec

namespace FFTW.Spec
open FFTW.Tensor FFTW.Copy FFTW.Api

/-- vl % b pieces -/
theorem batches_eq (b : ℕ) (hb : 0 < b) (vl : ℕ) (body : ℕ → ℕ → State → State) (q : ℕ) : ∀ i st, q = 0 ∨ i + q * b < vl → vl ≤ i + (q + 1) * b →
    DftS.batches b hb vl body i st = forN (q + 1) (fun j => body (i + j * b) (if j < q then b else vl - (i + q * b))) st := by
  have gen : ∀ (n : ℕ) (f : ℕ → State → State) st, forN (n + 1) f st = forN n (fun j => f (j + 1)) (f 0 st) := by
    intro n
    induction n with
    | zero => intro f st; rfl
    | succ n ih => intro f st; rw [forN_succ, ih, forN_succ]
  induction q with
  | zero =>
    intro i st h1 h2
    rw [DftS.batches, if_neg (by omega)]
    simp [forN]
  | succ q ih =>
    intro i st h1 h2
    replace h1 : i + (q + 1) * b < vl := h1.resolve_left (by omega)
    rw [DftS.batches, if_pos (by nlinarith), ih _ _ (Or.inr (by nlinarith)) (by nlinarith), gen (q + 1)]
    congr 1
    · funext j
      rw [show i + b + j * b = i + (j + 1) * b by ring, show i + b + q * b = i + (q + 1) * b by ring]
      simp
    · simp

/-- the batches make up the whole -/
theorem pairs_batches (b q vl : ℕ) (s t : ℤ) (h1 : q * b < vl) :
    pairs (some [⟨vl, s, t⟩]) = (Multiset.range (q + 1)).bind fun i =>
      (pairs (some [⟨if i < q then b else vl - q * b, s, t⟩])).map fun v => (((i * b : ℕ) : ℤ) * s, ((i * b : ℕ) : ℤ) * t) + v := by
  have key : ∀ n, pairs (some [⟨n * b, s, t⟩]) = (Multiset.range n).bind fun i =>
      (pairs (some [⟨b, s, t⟩])).map fun v => (((i * b : ℕ) : ℤ) * s, ((i * b : ℕ) : ℤ) * t) + v := by
    intro n
    induction n with
    | zero => simp [pairs, offs]
    | succ n ih =>
      rw [Nat.succ_mul, pairs_concat, ih, Multiset.range_succ, Multiset.cons_bind, add_comm]
  rw [Multiset.range_succ, Multiset.cons_bind, if_neg (lt_irrefl _)]
  have e : vl = q * b + (vl - q * b) := by omega
  conv_lhs => rw [e, pairs_concat, key, add_comm]
  congr 1
  apply Multiset.bind_congr
  intro i hi
  rw [if_pos (Multiset.mem_range.1 hi)]

/-- locations of a pair copy -/
theorem map2dPair_eq (I O : Ptr) (δi δo : ℤ) (n : ℕ) (is os : ℤ) (bs : ℕ) (ivs ovs : ℤ) :
    map2dPair I (I + δi) O (O + δo) n is os bs ivs ovs =
      {e | ∃ ab ∈ pairs (locT ℂ δi δo ([] : List (Dim × Unit)) (some [⟨bs, ivs, ovs⟩, ⟨n, is, os⟩])), e = (I + ab.1, O + ab.2)} := by
  have e : ∀ ab : ℤ × ℤ, ab ∈ pairs (locT ℂ δi δo ([] : List (Dim × Unit)) (some [⟨bs, ivs, ovs⟩, ⟨n, is, os⟩])) ↔
      ∃ c < 2, ∃ v < bs, ∃ j < n, ab = ((c : ℕ) * δi + ((v : ℕ) * ivs + (j : ℕ) * is), (c : ℕ) * δo + ((v : ℕ) * ovs + (j : ℕ) * os)) := by
    intro ab
    rw [locT_some, List.map_nil, List.nil_append, mem_pairs_cons]
    constructor
    · rintro ⟨c, hc, x, hx, rfl⟩
      obtain ⟨v, hv, y, hy, rfl⟩ := mem_pairs_cons.1 hx
      obtain ⟨j, hj, z, hz, rfl⟩ := mem_pairs_cons.1 hy
      obtain rfl : z = 0 := by simpa [pairs, offs] using hz
      exact ⟨c, hc, v, hv, j, hj, by simp⟩
    · rintro ⟨c, hc, v, hv, j, hj, rfl⟩
      refine ⟨c, hc, _, mem_pairs_cons.2 ⟨v, hv, _, mem_pairs_cons.2 ⟨j, hj, 0, by simp [pairs, offs], rfl⟩, rfl⟩, by simp⟩
  ext x
  simp only [Set.mem_setOf_eq, map2dPair, map2d, Set.mem_union]
  constructor
  · rintro (⟨i0, i1, v, h0, h1, hv, rfl⟩ | ⟨i0, i1, v, h0, h1, hv, rfl⟩)
    · obtain rfl : v = 0 := by omega
      refine ⟨_, (e _).2 ⟨0, by omega, i1, h1, i0, h0, rfl⟩, ?_⟩
      simp [add_comm]
    · obtain rfl : v = 0 := by omega
      refine ⟨_, (e _).2 ⟨1, by omega, i1, h1, i0, h0, rfl⟩, ?_⟩
      simp only [Ptr.add_add, Nat.cast_one, Nat.cast_zero, one_mul, add_zero, add_comm]
  · rintro ⟨ab, hab, rfl⟩
    obtain ⟨c, hc, v, hv, j, hj, rfl⟩ := (e _).1 hab
    rcases (by omega : c = 0 ∨ c = 1) with rfl | rfl
    · exact Or.inl ⟨j, v, 0, hj, hv, by omega, by simp [add_comm]⟩
    · exact Or.inr ⟨j, v, 0, hj, hv, by omega, by simp only [Ptr.add_add, Nat.cast_one, Nat.cast_zero, one_mul, add_zero, add_comm]⟩

/-- copying pairs -/
theorem GOK_pair {n bs : ℕ} {is os ivs ovs δi δo : ℤ} {nd : Bool} {f : Ptr → Ptr → State → State}
    (h : ∀ I O N, OutOfPlace (map2dPair I (I + δi) O (O + δo) n is os bs ivs ovs) → Below N (map2dPair I (I + δi) O (O + δo) n is os bs ivs ovs) →
      Does N N (map2dPair I (I + δi) O (O + δo) n is os bs ivs ovs) (f I O)) :
    GOK dftK ([] : List (Dim × Unit)) (some [⟨bs, ivs, ovs⟩, ⟨n, is, os⟩]) δi δo false nd f := by
  intro wf I O st hc
  have hO : OutOfPlace (map2dPair I (I + δi) O (O + δo) n is os bs ivs ovs) := by
    rw [map2dPair_eq]
    constructor
    · rintro e ⟨ab, hab, rfl⟩ e' ⟨ab', hab', rfl⟩
      exact hc.disj rfl _ (mem_ins.2 ⟨_, hab'⟩) _ (mem_outs.2 ⟨_, hab⟩)
    · rintro e ⟨ab, hab, rfl⟩ e' ⟨ab', hab', rfl⟩ he
      have hn := wf.out
      rw [outs_eq] at hn
      have := Multiset.inj_on_of_nodup_map hn ab hab ab' hab' (by simpa using he)
      rw [this]
  have hB : Below st.next (map2dPair I (I + δi) O (O + δo) n is os bs ivs ovs) := by
    rw [map2dPair_eq]
    rintro e ⟨ab, hab, rfl⟩
    exact ⟨hc.blkI, hc.blkO⟩
  have hcp := (h I O st.next hO hB).copies
  rw [map2dPair_eq] at hcp
  refine ⟨⟨hcp.next, fun q hq hn => hcp.other q hq ?_⟩, ?_⟩
  · rintro e ⟨ab, hab, rfl⟩ rfl
    exact hn (Or.inl ⟨ab.2, mem_outs.2 ⟨ab.1, hab⟩, rfl⟩)
  · intro dk hdk ab hab
    obtain rfl : dk = [] := List.map_eq_nil_iff.1 hdk.1
    simp only [gOut_nil, gSum, zero_add]
    apply Elt.dec_congr
    intro c hc'
    have hm : ((c : ℤ) * δi + ab.1, (c : ℤ) * δo + ab.2) ∈ pairs (locT ℂ δi δo ([] : List (Dim × Unit)) (some [⟨bs, ivs, ovs⟩, ⟨n, is, os⟩])) := by
      rw [locT_some, List.map_nil, List.nil_append]
      exact mem_pairs_cons.2 ⟨c, hc', ab, hab, rfl⟩
    have := hcp.copied _ ⟨_, hm, rfl⟩
    simpa using this

theorem GOK_pairCi (n bs : ℕ) (is os ivs ovs δi δo : ℤ) (nd : Bool) :
    GOK dftK ([] : List (Dim × Unit)) (some [⟨bs, ivs, ovs⟩, ⟨n, is, os⟩]) δi δo false nd
      fun I O => cpy2dPairCi I (I + δi) O (O + δo) n is os bs ivs ovs :=
  GOK_pair fun _ _ _ h1 h2 => does_cpy2dPairCi h1 h2

theorem GOK_pairCo (n bs : ℕ) (is os ivs ovs δi δo : ℤ) (nd : Bool) :
    GOK dftK ([] : List (Dim × Unit)) (some [⟨bs, ivs, ovs⟩, ⟨n, is, os⟩]) δi δo false nd
      fun I O => cpy2dPairCo I (I + δi) O (O + δo) n is os bs ivs ovs :=
  GOK_pair fun _ _ _ h1 h2 => does_cpy2dPairCo h1 h2

/-- the buffer has room: distinct elements do not collide -/
theorem buf_nodup {n bs b : ℕ} (h : bs ≤ b) (s1 s2 : ℤ) :
    (ins (locT ℂ 1 s1 [((⟨n, 2 * (b : ℤ), s2⟩ : Dim), ())] (some [⟨bs, 2, s1⟩]))).Nodup := by
  show (offs [(2, (1 : ℤ)), (n, 2 * (b : ℤ)), (bs, (2 : ℤ))]).Nodup
  rw [offs_boxes]
  refine (nodup_boxes _).map_on ?_
  intro x hx y hy he
  simp only [List.map_cons, List.map_nil, mem_boxes] at hx hy he
  obtain ⟨c, x1, hc, hx1, rfl⟩ := box_cons.1 hx
  obtain ⟨k, x2, hk, hx2, rfl⟩ := box_cons.1 hx1
  obtain ⟨v, x, hv, hx3, rfl⟩ := box_cons.1 hx2
  obtain ⟨c', y1, hc', hy1, rfl⟩ := box_cons.1 hy
  obtain ⟨k', y2, hk', hy2, rfl⟩ := box_cons.1 hy1
  obtain ⟨v', y, hv', hy3, rfl⟩ := box_cons.1 hy2
  obtain rfl : x = [] := List.length_eq_zero_iff.1 (by rw [box_length hx3]; rfl)
  obtain rfl : y = [] := List.length_eq_zero_iff.1 (by rw [box_length hy3]; rfl)
  simp only [dot_cons, dot_nil] at he
  have e1 : (2 * (b : ℤ)) * k = 2 * (b * k) := by ring
  have e2 : (2 * (b : ℤ)) * k' = 2 * (b * k') := by ring
  have h1 : c = c' := by omega
  have h2 : (b : ℤ) * k + v = b * k' + v' := by
    omega
  have h3 : b * k + v = b * k' + v' := by exact_mod_cast h2
  have hk : k = k' := by
    have e1 : (b * k + v) / b = k := by rw [Nat.mul_add_div (by omega), Nat.div_eq_of_lt (by omega), add_zero]
    have e2 : (b * k' + v') / b = k' := by rw [Nat.mul_add_div (by omega), Nat.div_eq_of_lt (by omega), add_zero]
    rw [← e1, ← e2, h3]
  subst hk
  have : v = v' := by omega
  subst h1 this
  rfl

end FFTW.Spec

namespace FFTW.DftS
open Tensor Spec
variable [CLib]

omit [CLib] in
/-- in-place strides: equal input and output locations -/
theorem ins_eq_outs_of_strides {δ : ℤ} {sz : List (Dim × Unit)} {l : List Dim} (h1 : ∀ e ∈ sz, e.1.is = e.1.os) (h2 : ∀ d ∈ l, d.is = d.os) :
    ins (locT ℂ δ δ sz (some l)) = outs (locT ℂ δ δ sz (some l)) := by
  rw [locT_some]
  simp only [ins, outs, List.map_cons, List.map_append, List.map_map, Function.comp_def]
  have e1 : sz.map (fun x => (x.1.n, x.1.is)) = sz.map fun x => (x.1.n, x.1.os) := List.map_congr_left fun e he => by rw [h1 e he]
  have e2 : l.map (fun x => (x.n, x.is)) = l.map fun x => (x.n, x.os) := List.map_congr_left fun e he => by rw [h2 e he]
  rw [e1, e2]

theorem direct_sound (c : KDft) (hc : c.Sound) : (direct c).Sound := by
  apply dftSolver_sound
  intro p fl hk
  obtain ⟨⟨hn1, hn0, hap⟩, hn2, hip⟩ := kosher_dft hk
  split
  rotate_left
  · exact good_nada
  rename_i d v hsz hv
  split
  rotate_left
  · exact good_nada
  rename_i vd htor
  have hvd : 0 < vd.n := by
    match v, htor with
    | [], h => obtain rfl := Option.some.inj h; simp
    | [e], h => obtain rfl := Option.some.inj h; exact kosher_vpos hk hv e (by simp)
  -- in place: what `applicable` guarantees
  have hpl : ∀ b, directApplicable c p d vd fl = some b → d.n = c.sz ∧ (decide (p.ri = p.ro) = true → vd.n = 1 ∨ d.is = d.os ∧ vd.is = vd.os) := by
    intro b hb
    unfold directApplicable at hb
    split at hb
    · rename_i h
      refine ⟨h.1, fun he => ?_⟩
      rcases h.2 with h | h | ⟨v', hv', h⟩
      · exact absurd (of_decide_eq_true he) h
      · exact Or.inl h
      · rw [hv] at hv'
        obtain rfl := Option.some.inj hv'
        simp only [inplaceStrides2, inplaceStrides, Bool.and_eq_true, List.all_eq_true, decide_eq_true_eq, hsz, List.mem_singleton, forall_eq] at h
        match v, htor, h with
        | [], ht, _ => obtain rfl := Option.some.inj ht; exact Or.inl rfl
        | [e], ht, h' => obtain rfl := Option.some.inj ht; exact Or.inr ⟨h'.1, h'.2 _ (by simp)⟩
    · simp at hb
  have final : ∀ g : Ptr → Ptr → Ptr → Ptr → State → State,
      GOK dftK [(d, ())] (some [vd]) (p.ii - p.ri) (p.io - p.ro) (decide (p.ri = p.ro)) true
        (fun I O => g I (I + (p.ii - p.ri)) O (O + (p.io - p.ro))) → FFTW.Sound fl.nd (.dft p) (.dft g) := by
    intro g h
    refine soundDft (by simp [hv]) ?_
    rw [hsz, hv]
    exact (h.vec_congr (tornk1_pairs htor)).weaken (by simp)
  split
  · rename_i happ
    obtain ⟨hsz', hi⟩ := hpl _ happ
    apply good_ret
    apply final
    have hok : c.okp p.ri p.ii p.ro p.io d.is d.os vd.n vd.is vd.os fl = true := by
      unfold directApplicable at happ
      split at happ
      · split at happ
        · assumption
        · split at happ <;> simp at happ
      · simp at happ
    have := hc.run _ _ _ _ _ _ _ _ _ _ hok (decide (p.ri = p.ro)) fun h => (hi h).imp le_of_eq id
    rw [← hsz'] at this
    exact this
  · rename_i happ
    obtain ⟨hsz', hi⟩ := hpl _ happ
    apply good_ret
    apply final
    obtain ⟨hok1, hok2⟩ : c.okp p.ri p.ii p.ro p.io d.is d.os (vd.n - 1) vd.is vd.os fl = true ∧ c.okp p.ri p.ii p.ro p.io d.is d.os 2 0 0 fl = true := by
      unfold directApplicable at happ
      split at happ
      · split at happ
        · simp at happ
        · split at happ
          · assumption
          · simp at happ
      · simp at happ
    intro wf
    obtain ⟨vl, ivs, ovs⟩ := vd
    obtain ⟨a, rfl⟩ : ∃ a, vl = a + 1 := ⟨vl - 1, by simp only at hvd; omega⟩
    simp only [Nat.add_sub_cancel] at hok1 ⊢
    obtain ⟨n, is, os⟩ := d
    simp only at hsz' hi hok1 hok2 ⊢
    subst hsz'
    have hA : decide (p.ri = p.ro) = true → a = 0 ∨ is = os ∧ ivs = ovs := fun h => by
      rcases hi h with h | h
      · left; omega
      · exact Or.inr h
    have hw := wf.eq
    have hdl := wf.delta
    have one : pairs (some [(⟨1, ivs, ovs⟩ : Dim)]) = pairs (some [(⟨1, 0, 0⟩ : Dim)]) := by
      show offs _ = offs _
      simp only [List.map_cons, List.map_nil, offs_one]
    have hstr : ∀ k : ℕ, decide (p.ri = p.ro) = true → is = os ∧ ivs = ovs →
        ins (locT ℂ (p.ii - p.ri) (p.io - p.ro) [((⟨c.sz, is, os⟩ : Dim), ())] (some [⟨k, ivs, ovs⟩])) =
        outs (locT ℂ (p.ii - p.ri) (p.io - p.ro) [((⟨c.sz, is, os⟩ : Dim), ())] (some [⟨k, ivs, ovs⟩])) := by
      rintro k hd ⟨rfl, rfl⟩
      rw [hdl hd]
      exact ins_eq_outs_of_strides (by simp) (by simp)
    have h1 := hc.run _ _ _ _ _ _ _ _ _ _ hok1 (decide (p.ri = p.ro)) ?_
    · have h2 := (hc.one _ _ _ _ _ _ _ hok2 (decide (p.ri = p.ro))).vec_congr one
      refine (GOK_concat (a := a) (b := 1) (s := ivs) (t := ovs) (l := []) h1 h2 ?_ ?_ ?_ ?_).congr (fun I O st => ?_) wf
      · intro hd
        rcases hA hd with rfl | h
        · simp [locT_some, ins_eq, outs_eq, pairs, offs]
        · exact hstr _ hd h
      · intro hd
        rcases hA hd with rfl | h
        · exact hw hd
        · exact hstr _ hd h
      · intro hd
        rcases hA hd with rfl | h
        · simp [of_decide_eq_true hd]
        · simp [of_decide_eq_true hd, h.2]
      · intro hd; exact Or.inl hd
      · simp only [Ptr.add_add, add_comm]
    · -- the first part may be empty
      intro hd
      rcases hA hd with rfl | h
      · exact Or.inl (by omega)
      · exact Or.inr h
  · exact good_nada

/-- one batch -/
theorem GOK_dobatch {c : KDft} {n bs b : ℕ} {is os ivs ovs δi δo : ℤ} {inpl nd : Bool} (hb : b = batchsize n) (hbs : bs ≤ b)
    (h1 : |os| < |ovs| → GOK dftK [(⟨n, 2 * (b : ℤ), os⟩, ())] (some [⟨bs, 2, ovs⟩]) 1 δo false true
      fun I O => c.k I (I + (1 : ℤ)) O (O + δo) (2 * (b : ℤ)) os bs 2 ovs)
    (h2 : ¬ |os| < |ovs| → GOK dftK [(⟨n, 2 * (b : ℤ), 2 * (b : ℤ)⟩, ())] (some [⟨bs, 2, 2⟩]) 1 1 true true
      fun I O => c.k I (I + (1 : ℤ)) O (O + (1 : ℤ)) (2 * (b : ℤ)) (2 * (b : ℤ)) bs 2 2) :
    GOK dftK [(⟨n, is, os⟩, ())] (some [⟨bs, ivs, ovs⟩]) δi δo inpl nd
      fun I O => withBuf (dobatch c n is os ivs ovs I (I + δi) O (O + δo) bs) := by
  have hcp := GOK_pairCi n bs is (2 * (b : ℤ)) ivs 2 δi 1 true
  by_cases hc : |os| < |ovs|
  · have := GOK_bufIn (szm := [((⟨n, is, os⟩, ()), 2 * (b : ℤ))]) (vm := [(⟨bs, ivs, ovs⟩, 2)]) (δi := δi) (δb := 1) (δo := δo) (e := 0)
      (inpl := inpl) (nd := nd) hcp (h1 hc) (buf_nodup hbs _ _)
    refine this.congr fun I O st => ?_
    show withBuf _ st = withBuf _ st
    congr 1
    funext B st
    simp only [dobatch, if_pos hc, Ptr.add_zero, ← hb]
  · have hco := GOK_pairCo n bs (2 * (b : ℤ)) os 2 ovs 1 δo false
    have h3 := GOK_copyLast (K := dftK) (sz := [((⟨n, 2 * (b : ℤ), os⟩ : Dim), ())]) (vec := some [⟨bs, 2, ovs⟩]) (δi := 1) (δo := δo) (inpl := false)
      (nd := false) (h2 hc) hco (Or.inl rfl) (by simp)
    have := GOK_bufIn (szm := [((⟨n, is, os⟩, ()), 2 * (b : ℤ))]) (vm := [(⟨bs, ivs, ovs⟩, 2)]) (δi := δi) (δb := 1) (δo := δo) (e := 0)
      (inpl := inpl) (nd := nd) hcp h3 (buf_nodup hbs _ _)
    refine this.congr fun I O st => ?_
    show withBuf _ st = withBuf _ st
    congr 1
    funext B st
    simp only [dobatch, if_neg hc, Ptr.add_zero, ← hb]

theorem directbuf_sound (c : KDft) (taste : Taste) (hc : c.Sound) : (directbuf c taste).Sound := by
  apply dftSolver_sound
  intro p fl hk
  obtain ⟨⟨hn1, hn0, hap⟩, hn2, hip⟩ := kosher_dft hk
  split
  rotate_left
  · exact good_nada
  rename_i d vd hsz hv
  split
  rotate_left
  · exact good_nada
  rename_i happ
  have hd1 : 1 < d.n := (hk.2.2.1 d (by rw [hsz]; simp)).2.2
  have hv1 : 1 < vd.n := (hk.2.2.2 _ hv vd (by simp)).2.2
  obtain ⟨n, is, os⟩ := d
  obtain ⟨vl, ivs, ovs⟩ := vd
  simp only [directbufApplicable, Bool.and_eq_true, Bool.or_eq_true, decide_eq_true_eq, inplaceStrides2, inplaceStrides, List.all_cons,
    List.all_nil, and_true] at happ hd1 hv1
  obtain ⟨⟨⟨⟨hsz', ok1⟩, ok2⟩, hpl⟩, -⟩ := happ
  subst hsz'
  apply good_ret
  refine soundDft (by simp [hv]) ?_
  rw [hsz, hv]
  intro wf
  set b := batchsize c.sz with hb
  have hb0 : 0 < b := batchsize_pos _
  -- the output strides differ
  have hne : ¬ |os| < |ovs| → |ovs| < |os| ∧ ovs ≠ 0 := by
    intro h
    have hw : (offs [(2, (p.io - p.ro : ℤ)), (c.sz, os), (vl, ovs)]).Nodup := wf.out
    have key : ∀ k k' v v' : ℕ, k < c.sz → k' < c.sz → v < vl → v' < vl → (k : ℤ) * os + v * ovs = k' * os + v' * ovs → k = k' ∧ v = v' := by
      intro k k' v v' hk hk' hv hv' he
      have := offs3_inj hw (i := 0) (i' := 0) (by omega) hk hv (by omega) hk' hv' (by linarith)
      exact this.2
    have k1 : os ≠ ovs := fun e => by have := (key 1 0 0 1 (by omega) (by omega) (by omega) (by omega) (by rw [e]; push_cast; ring)).1; omega
    have k2 : os ≠ -ovs := fun e => by have := (key 1 0 1 0 (by omega) (by omega) (by omega) (by omega) (by rw [e]; push_cast; ring)).1; omega
    have k3 : ovs ≠ 0 := fun e => by have := (key 0 0 1 0 (by omega) (by omega) (by omega) (by omega) (by rw [e]; push_cast; ring)).2; omega
    refine ⟨lt_of_le_of_ne (not_lt.1 h) fun e => ?_, k3⟩
    rcases abs_eq_abs.1 e with e | e
    · exact k1 e.symm
    · exact k2 (by rw [e, neg_neg])
  obtain ⟨q, hq1, hq2⟩ : ∃ q, q * b < vl ∧ vl ≤ (q + 1) * b := by
    refine ⟨(vl - 1) / b, ?_, ?_⟩
    · have := Nat.div_mul_le_self (vl - 1) b; omega
    · have := Nat.lt_div_mul_add (a := vl - 1) hb0
      rw [Nat.succ_mul]; omega
  have hsize : ∀ i < q + 1, ∃ s, s = (if i < q then b else vl - q * b) ∧ s ≤ b ∧ c.okp null (null + (1 : ℤ)) p.ro p.io (2 * (b : ℤ)) os s 2 ovs fl = true := by
    intro i hi
    refine ⟨_, rfl, ?_⟩
    split
    · exact ⟨le_refl _, ok1⟩
    · rw [Nat.succ_mul] at hq2
      refine ⟨by omega, ?_⟩
      by_cases he : vl - q * b = b
      · rw [he]; exact ok1
      · have : vl % b = vl - q * b := by
          have e : vl = (vl - q * b) + b * q := by rw [mul_comm b q]; omega
          conv_lhs => rw [e, Nat.add_mul_mod_self_left]
          exact Nat.mod_eq_of_lt (by omega)
        rw [← this]; exact ok2
  have hstr : decide (p.ri = p.ro) = true → q = 0 ∨ is = os ∧ ivs = ovs := by
    intro h
    rcases hpl with (h' | h') | h'
    · exact absurd (of_decide_eq_true h) h'
    · exact Or.inr h'
    · left
      by_contra hq
      have : b ≤ q * b := Nat.le_mul_of_pos_left b (Nat.pos_of_ne_zero hq)
      omega
  refine (GOK_pieces (K := dftK) (sz := tag [⟨c.sz, is, os⟩]) (m := q + 1) (voff := fun i => (((i * b : ℕ) : ℤ) * ivs, ((i * b : ℕ) : ℤ) * ovs))
    (vecs := fun i => some [⟨if i < q then b else vl - q * b, ivs, ovs⟩]) (ip := fun _ => decide (p.ri = p.ro))
    (f := fun i I O => withBuf (dobatch c c.sz is os ivs ovs I (I + (p.ii - p.ri)) O (O + (p.io - p.ro)) (if i < q then b else vl - q * b)))
    (pairs_batches b q vl ivs ovs hq1) ?_ ?_ (fun _ _ h => Or.inl h) ?_).congr (fun I O st => ?_) wf
  · intro i hi
    obtain ⟨s, hs, hsb, hok⟩ := hsize i hi
    simp only [← hs]
    refine GOK_dobatch hb hsb ?_ ?_
    · intro _
      exact hc.run null (null + (1 : ℤ)) p.ro p.io _ _ _ _ _ _ hok false (by simp)
    · intro h
      exact hc.inBuf _ _ _ _ _ _ _ hok (hne h).1 (hne h).2
  · intro i hi h
    refine ⟨h, ?_⟩
    rcases hstr h with rfl | ⟨-, rfl⟩
    · obtain rfl : i = 0 := by omega
      simp
    · rfl
  · intro h i hi
    rcases hstr h with rfl | ⟨rfl, rfl⟩
    · simpa using wf.eq h
    · have hδ := wf.delta h
      rw [hδ]
      exact ins_eq_outs_of_strides (by simp [tag]) (by simp)
  · rw [batches_eq b hb0 vl _ q 0 st (Or.inr (by omega)) (by omega)]
    congr 1
    funext j st
    simp only [zero_add, Ptr.add_add, add_comm]

end FFTW.DftS
