import Verif.Spec.CodeletR
import Verif.Proofs.Codelets
import Verif.Proofs.RdftSolvers
import Verif.Proofs.Fill
import Verif.Proofs.GenfftCodelets

/-!
# rdft/direct-r2c.c
-/

namespace FFTW.RdftS
open Tensor Spec DftS Finset FFTW.Api FFTW.Copy
variable [CLib]

omit [CLib] in
theorem realAt_stride (P : Ptr) (s : ℤ) (j : ℕ) : realAt P (P + s) (2 * s) j = P + (j : ℤ) * s := by
  unfold realAt
  have h := Nat.div_add_mod j 2
  have h' : (2 : ℤ) * ((j / 2 : ℕ) : ℤ) + ((j % 2 : ℕ) : ℤ) = (j : ℤ) := by exact_mod_cast h
  have e : (j : ℤ) * s = ((j % 2 : ℕ) : ℤ) * s + ((j / 2 : ℕ) : ℤ) * (2 * s) := by rw [← h']; ring
  rw [e]
  rcases Nat.mod_two_eq_zero_or_one j with h0 | h0
  · rw [if_pos h0, h0]; simp
  · rw [if_neg (by omega), h0, Ptr.add_add]; simp

omit [CLib] in
theorem hcAt_stride {kind : RKind} (hk : kind = .R2HC00 ∨ kind = .R2HC01 ∨ kind = .HC2R00 ∨ kind = .HC2R10) (P : Ptr) (s : ℤ) {n p : ℕ} (hp : p < n) :
    hcAt n (freqShift kind) P (P + ioffset kind n s) s (-s) p = P + (p : ℤ) * s := by
  unfold hcAt
  split
  · rfl
  · have hs : freqShift kind ≤ 1 := by rcases hk with rfl | rfl | rfl | rfl <;> simp [freqShift]
    have e : ioffset kind n s = s * ((n : ℤ) - (freqShift kind : ℕ)) := by
      rcases hk with rfl | rfl | rfl | rfl <;> simp [freqShift, ioffset]
    rw [e, Ptr.add_add, Nat.cast_sub (by omega), Nat.cast_sub (by omega)]
    congr 1
    ring

/-- the call of a codelet by `apply_r2hc` and `apply_hc2r`, rdft/direct-r2c.c:46-62 -/
def runR (c : KR2c) (is os : ℤ) (vl : ℕ) (ivs ovs : ℤ) (I O : Ptr) : State → State :=
  if r2hcKindp c.kind then c.k I (I + is) O (O + ioffset c.kind c.n os) (2 * is) os (-os) vl ivs ovs
  else c.k O (O + os) I (I + ioffset c.kind c.n is) (2 * os) is (-is) vl ivs ovs

omit [CLib] in
theorem runR_one {c : KR2c} (hc : c.Sound) (is os : ℤ) : R1x c.kind c.n is os (runR c is os 1 0 0) := by
  intro ho I O st bI bO
  unfold runR
  have hinj : ∀ k < c.n, ∀ k' < c.n, O + (k : ℤ) * os = O + (k' : ℤ) * os → k = k' := fun k hk k' hk' e => ho k k' hk hk' ((ptr_add_right_inj O).1 e)
  split
  · rename_i hf
    have h1 := hc.one I (I + is) O (O + ioffset c.kind c.n os) (2 * is) os (-os) st
    simp only [hf, if_true] at h1
    have h2 := h1 fun k hk k' hk' e => hinj k hk k' hk' (by rwa [hcAt_stride hc.kinds _ _ hk, hcAt_stride hc.kinds _ _ hk'] at e)
    refine ⟨h2.next.ge, fun q _ hq => h2.other q fun k hk => ?_, fun k hk => ?_⟩
    · rw [hcAt_stride hc.kinds _ _ hk]; exact hq k hk
    · have := h2.val k hk
      rw [hcAt_stride hc.kinds _ _ hk] at this
      rw [this]
      exact sum_congr rfl fun j _ => by rw [realAt_stride]
  · rename_i hf
    have h1 := hc.one O (O + os) I (I + ioffset c.kind c.n is) (2 * os) is (-is) st
    simp only [Bool.not_eq_true] at hf
    simp only [hf, Bool.false_eq_true, if_false] at h1
    have h2 := h1 fun k hk k' hk' e => hinj k hk k' hk' (by rwa [realAt_stride, realAt_stride] at e)
    refine ⟨h2.next.ge, fun q _ hq => h2.other q fun k hk => ?_, fun k hk => ?_⟩
    · rw [realAt_stride]; exact hq k hk
    · have := h2.val k hk
      rw [realAt_stride] at this
      rw [this]
      exact sum_congr rfl fun j hj => by rw [hcAt_stride hc.kinds _ _ (mem_range.1 hj)]

omit [CLib] in
theorem runR_loop {c : KR2c} (hc : c.Sound) (is os : ℤ) (vl : ℕ) (ivs ovs : ℤ) (I O : Ptr) (st : State) :
    runR c is os vl ivs ovs I O st = forN vl (fun i st => runR c is os 1 0 0 (I + (i : ℤ) * ivs) (O + (i : ℤ) * ovs) st) st := by
  unfold runR
  split
  · rename_i hf
    rw [hc.loop]
    refine forN_congr (fun i _ st => ?_) st
    simp only [hf, if_true, Ptr.add_add, add_comm]
  · rename_i hf
    rw [hc.loop]
    refine forN_congr (fun i _ st => ?_) st
    simp only [hf, Bool.false_eq_true, if_false, Ptr.add_add, add_comm]

omit [CLib] in
theorem GOK_runR {c : KR2c} (hc : c.Sound) (is os : ℤ) (vl : ℕ) (ivs ovs : ℤ) (inpl : Bool) (h : inpl = true → vl ≤ 1 ∨ is = os ∧ ivs = ovs) :
    GOK rK [(⟨c.n, is, os⟩, c.kind)] (some [⟨vl, ivs, ovs⟩]) 0 0 inpl true (runR c is os vl ivs ovs) := by
  have h1 : GOK rK [(⟨c.n, is, os⟩, c.kind)] (some []) 0 0 inpl true (runR c is os 1 0 0) := GOK_rank1R (d := ⟨c.n, is, os⟩) ((runR_one hc is os).toR1 _ _)
  rcases (by omega : vl = 0 ∨ vl = 1 ∨ 2 ≤ vl) with rfl | rfl | hv
  · exact (GOK_empty (K := rK) (Genfft.pairs_zero _ _) _ _ _ _).congr fun I O st => runR_loop hc is os 0 ivs ovs I O st
  · refine (h1.vec_congr (Genfft.pairs_one _ _)).congr ?_
    intro I O st
    rw [runR_loop hc]
    simp [forN, iter, Ptr.add_zero]
  · refine GOK.congr (f := fun I O st => forN vl (fun i st => runR c is os 1 0 0 (I + (i : ℤ) * ivs) (O + (i : ℤ) * ovs) st) st) ?_
      (fun I O st => runR_loop hc is os vl ivs ovs I O st)
    by_cases hi : inpl = true
    · have h' : is = os ∧ ivs = ovs := (h hi).resolve_left (by omega)
      obtain ⟨rfl, rfl⟩ := h'
      refine GOK_loop (d := ⟨vl, ivs, ivs⟩) h1 (fun _ => ?_) (fun _ => rfl)
      rw [ins_locT_real, outs_locT_real]; rfl
    · exact GOK_loop (d := ⟨vl, ivs, ovs⟩) h1 (fun h => absurd h hi) (fun h => absurd h hi)

theorem directR_sound (c : KR2c) (hc : c.Sound) : (directR c).Sound := by
  apply rdftSolver_sound
  intro p fl hk
  obtain ⟨hn0, hap, hvp, hip⟩ := kosher_rdft hk
  split
  rotate_left
  · exact good_nada
  rename_i d kind v hsz hv
  split
  rotate_left
  · exact good_nada
  rename_i vd htor
  split
  rotate_left
  · exact good_nada
  rename_i happ
  simp only [directRApplicable, Bool.and_eq_true, Bool.or_eq_true, decide_eq_true_eq, inplaceStrides2, inplaceStrides, List.all_eq_true] at happ
  obtain ⟨⟨e1, rfl⟩, hst⟩ := happ
  apply good_ret
  refine soundRdft (by simp [hv]) ?_
  rw [hsz, hv]
  have key := GOK_runR hc d.is d.os vd.n vd.is vd.os (decide (p.I = p.O)) ?_
  · rw [← e1] at key
    refine ((key.vec_congr (tornk1_pairs htor)).weaken (by simp)).congr fun I O st => ?_
    unfold runR
    rw [← e1]
    split <;> rfl
  · intro h
    rcases hst with (h' | h') | ⟨h', h''⟩
    · exact absurd (of_decide_eq_true h) h'
    · exact Or.inl h'.le
    · match v, htor, h'' with
      | [], ht, _ => obtain rfl := Option.some.inj ht; exact Or.inl (by simp)
      | [e], ht, h'' => obtain rfl := Option.some.inj ht; exact Or.inr ⟨h' _ (by simp), h'' _ (by simp)⟩

omit [CLib] in
/-- the buffer has room: distinct elements do not collide -/
theorem bufR_nodup {kd : RKind} {n bs b : ℕ} (h : bs ≤ b) (s1 s2 : ℤ) :
    (ins (locT ℝ 0 0 [((⟨n, (b : ℤ), s2⟩ : Dim), kd)] (some [⟨bs, 1, s1⟩]))).Nodup := by
  rw [ins_locT_real]
  show (offs [(n, (b : ℤ)), (bs, (1 : ℤ))]).Nodup
  rw [offs_boxes]
  refine (nodup_boxes _).map_on ?_
  intro x hx y hy he
  simp only [List.map_cons, List.map_nil, mem_boxes] at hx hy he
  obtain ⟨k, x2, hk, hx2, rfl⟩ := box_cons.1 hx
  obtain ⟨v, x, hv, hx3, rfl⟩ := box_cons.1 hx2
  obtain ⟨k', y2, hk', hy2, rfl⟩ := box_cons.1 hy
  obtain ⟨v', y, hv', hy3, rfl⟩ := box_cons.1 hy2
  obtain rfl : x = [] := List.length_eq_zero_iff.1 (by rw [box_length hx3]; rfl)
  obtain rfl : y = [] := List.length_eq_zero_iff.1 (by rw [box_length hy3]; rfl)
  simp only [dot_cons, dot_nil] at he
  have h2 : (b : ℤ) * k + v = b * k' + v' := by linarith
  have h3 : b * k + v = b * k' + v' := by exact_mod_cast h2
  have hk : k = k' := by
    have e1 : (b * k + v) / b = k := by rw [Nat.mul_add_div (by omega), Nat.div_eq_of_lt (by omega), add_zero]
    have e2 : (b * k' + v') / b = k' := by rw [Nat.mul_add_div (by omega), Nat.div_eq_of_lt (by omega), add_zero]
    rw [← e1, ← e2, h3]
  subst hk
  have : v = v' := by omega
  subst this
  rfl

omit [CLib] in
/-- three dimensions, in any order, the last one trivial -/
theorem pairs_swap1 (a b : Dim) : pairs (some [a, b, ⟨1, 1, 1⟩]) = pairs (some [b, a]) := by
  have h1 : pairs (some [a, b, ⟨1, 1, 1⟩]) = pairs (some ([(⟨1, 1, 1⟩ : Dim)] ++ [b, a])) := by
    show offs _ = offs _
    refine offs_perm (List.Perm.map _ ?_)
    exact (List.Perm.swap b a _).trans (List.perm_append_comm (l₁ := [b, a]) (l₂ := [(⟨1, 1, 1⟩ : Dim)]))
  rw [h1, List.cons_append, List.nil_append, pairs_cons]
  simp
  exact (Multiset.map_congr rfl fun x _ => zero_add x).trans (Multiset.map_id _)

theorem GOK_ci (n bs : ℕ) (is os ivs ovs : ℤ) (nd : Bool) :
    GOK rK [] (some [⟨bs, ivs, ovs⟩, ⟨n, is, os⟩]) 0 0 false nd fun I O => cpy2dCi I O n is os bs ivs ovs 1 :=
  (GOK_cpy2d (cpy := cpy2dCi) (a := ⟨n, is, os⟩) (b := ⟨bs, ivs, ovs⟩) (vl := 1)
    fun _ _ _ ho _ hI hO => does_cpy2dCi ho (below_map2d hI hO)).vec_congr (pairs_swap1 _ _)

theorem GOK_co (n bs : ℕ) (is os ivs ovs : ℤ) (nd : Bool) :
    GOK rK [] (some [⟨bs, ivs, ovs⟩, ⟨n, is, os⟩]) 0 0 false nd fun I O => cpy2dCo I O n is os bs ivs ovs 1 :=
  (GOK_cpy2d (cpy := cpy2dCo) (a := ⟨n, is, os⟩) (b := ⟨bs, ivs, ovs⟩) (vl := 1)
    fun _ _ _ ho _ hI hO => does_cpy2dCo ho (below_map2d hI hO)).vec_congr (pairs_swap1 _ _)

/-- one batch of either direction -/
theorem GOK_dobatchR {c : KR2c} (hc : c.Sound) {bs : ℕ} {is os ivs ovs : ℤ} {inpl nd : Bool} (hbs : bs ≤ batchsize c.n) :
    GOK rK [(⟨c.n, is, os⟩, c.kind)] (some [⟨bs, ivs, ovs⟩]) 0 0 inpl nd
      fun I O => withBuf (if r2hcKindp c.kind then dobatchR2hc c c.kind c.n is os ivs ovs I O bs else dobatchHc2r c c.kind c.n os is ivs ovs I O bs) := by
  set b := batchsize c.n with hb
  have hcp := GOK_ci c.n bs is (b : ℤ) ivs 1 true
  have hco := GOK_co c.n bs (b : ℤ) os 1 ovs false
  have hin := GOK_runR hc (b : ℤ) (b : ℤ) bs 1 1 true (fun _ => Or.inr ⟨rfl, rfl⟩)
  have h3 := GOK_copyLast (K := rK) (sz := [((⟨c.n, (b : ℤ), os⟩ : Dim), c.kind)]) (vec := some [⟨bs, 1, ovs⟩]) (δi := 0) (δo := 0) (inpl := false)
      (nd := false) hin hco (Or.inl rfl) (by simp)
  have thru := GOK_bufIn (szm := [((⟨c.n, is, os⟩, c.kind), (b : ℤ))]) (vm := [(⟨bs, ivs, ovs⟩, 1)]) (δi := 0) (δb := 0) (δo := 0) (e := 0)
      (inpl := inpl) (nd := nd) hcp h3 (bufR_nodup hbs _ _)
  by_cases hf : r2hcKindp c.kind
  · by_cases hs : |os| < |ovs|
    · have h2 := GOK_runR hc (b : ℤ) os bs 1 ovs false (by simp)
      refine (GOK_bufIn (szm := [((⟨c.n, is, os⟩, c.kind), (b : ℤ))]) (vm := [(⟨bs, ivs, ovs⟩, 1)]) (δi := 0) (δb := 0) (δo := 0) (e := 0)
        (inpl := inpl) (nd := nd) hcp h2 (bufR_nodup hbs _ _)).congr fun I O st => ?_
      show withBuf _ st = withBuf _ st
      congr 1
      funext B st
      simp only [dobatchR2hc, runR, if_pos hs, if_pos hf, Ptr.add_zero, ← hb]
    · refine thru.congr fun I O st => ?_
      show withBuf _ st = withBuf _ st
      congr 1
      funext B st
      simp only [dobatchR2hc, runR, if_neg hs, if_pos hf, Ptr.add_zero, ← hb]
  · by_cases hs : |is| < |ivs|
    · have h2 := GOK_runR hc is (b : ℤ) bs ivs 1 false (by simp)
      refine (GOK_bufOut (szm := [((⟨c.n, is, os⟩, c.kind), (b : ℤ))]) (vm := [(⟨bs, ivs, ovs⟩, 1)]) (δi := 0) (δb := 0) (δo := 0) (e := 0)
        (inpl := inpl) (nd := nd) h2 hco (bufR_nodup hbs _ _) (by simp)).congr fun I O st => ?_
      show withBuf _ st = withBuf _ st
      congr 1
      funext B st
      simp only [dobatchHc2r, runR, if_pos hs, if_neg hf, Ptr.add_zero, ← hb]
    · refine thru.congr fun I O st => ?_
      show withBuf _ st = withBuf _ st
      congr 1
      funext B st
      simp only [dobatchHc2r, runR, if_neg hs, if_neg hf, Ptr.add_zero, ← hb]

theorem directbufR_sound (c : KR2c) (hc : c.Sound) : (directbufR c).Sound := by
  apply rdftSolver_sound
  intro p fl hk
  obtain ⟨hn0, hap, hvp, hip⟩ := kosher_rdft hk
  split
  rotate_left
  · exact good_nada
  rename_i d kind v hsz hv
  split
  rotate_left
  · exact good_nada
  rename_i vd htor
  split
  rotate_left
  · exact good_nada
  rename_i happ
  simp only [directbufRApplicable, Bool.and_eq_true, Bool.or_eq_true, decide_eq_true_eq, inplaceStrides2, inplaceStrides, List.all_eq_true] at happ
  obtain ⟨⟨e1, rfl⟩, hst⟩ := happ
  have hv1 : 0 < vd.n := by
    match v, htor with
    | [], h => obtain rfl := Option.some.inj h; simp
    | [e], h => obtain rfl := Option.some.inj h; exact hvp _ hv e (by simp)
  have hst' : decide (p.I = p.O) = true → vd.n ≤ batchsize c.n ∨ d.is = d.os ∧ vd.is = vd.os := by
    intro h
    rcases hst with (h' | ⟨h', h''⟩) | h'
    · exact absurd (of_decide_eq_true h) h'
    · match v, htor, h'' with
      | [], ht, _ => obtain rfl := Option.some.inj ht; exact Or.inl (batchsize_pos _)
      | [e], ht, h'' => obtain rfl := Option.some.inj ht; exact Or.inr ⟨h' _ (by simp), h'' _ (by simp)⟩
    · exact Or.inl h'
  obtain ⟨n, is, os⟩ := d
  obtain ⟨vl, ivs, ovs⟩ := vd
  simp only at e1 hv1 hst'
  subst e1
  apply good_ret
  refine soundRdft (by simp [hv]) ?_
  rw [hsz, hv]
  suffices hh : GOK rK [(⟨c.n, is, os⟩, c.kind)] (some [⟨vl, ivs, ovs⟩]) 0 0 (decide (p.I = p.O)) fl.nd _ from hh.vec_congr (tornk1_pairs htor)
  intro wf
  set b := batchsize c.n with hb
  have hb0 : 0 < b := batchsize_pos _
  obtain ⟨q, hq1, hq2⟩ : ∃ q, q * b < vl ∧ vl ≤ (q + 1) * b := by
    refine ⟨(vl - 1) / b, ?_, ?_⟩
    · have := Nat.div_mul_le_self (vl - 1) b; omega
    · have := Nat.lt_div_mul_add (a := vl - 1) hb0
      rw [Nat.succ_mul]; omega
  have hsize : ∀ i < q + 1, (if i < q then b else vl - q * b) ≤ b := by
    intro i hi
    split
    · exact le_refl _
    · rw [Nat.succ_mul] at hq2
      omega
  have hstr : decide (p.I = p.O) = true → q = 0 ∨ is = os ∧ ivs = ovs := by
    intro h
    rcases hst' h with h' | h'
    · left
      by_contra hq
      have : b ≤ q * b := Nat.le_mul_of_pos_left b (Nat.pos_of_ne_zero hq)
      omega
    · exact Or.inr h'
  refine (GOK_pieces (K := rK) (sz := [(⟨c.n, is, os⟩, c.kind)]) (m := q + 1) (voff := fun i => (((i * b : ℕ) : ℤ) * ivs, ((i * b : ℕ) : ℤ) * ovs))
    (vecs := fun i => some [⟨if i < q then b else vl - q * b, ivs, ovs⟩]) (ip := fun _ => decide (p.I = p.O))
    (f := fun i I O => withBuf (if r2hcKindp c.kind then dobatchR2hc c c.kind c.n is os ivs ovs I O (if i < q then b else vl - q * b)
      else dobatchHc2r c c.kind c.n os is ivs ovs I O (if i < q then b else vl - q * b)))
    (pairs_batches b q vl ivs ovs hq1) ?_ ?_ (fun _ _ h => Or.inl h) ?_).congr (fun I O st => ?_) wf
  · intro i hi
    exact GOK_dobatchR hc (hsize i hi)
  · intro i hi h
    refine ⟨h, ?_⟩
    rcases hstr h with rfl | ⟨-, rfl⟩
    · obtain rfl : i = 0 := by omega
      simp
    · rfl
  · intro h i hi
    rcases hstr h with rfl | ⟨rfl, rfl⟩
    · simpa using wf.eq h
    · rw [ins_locT_real, outs_locT_real]; rfl
  · rw [batches_eq b hb0 vl _ q 0 st (Or.inr (by omega)) (by omega)]
    congr 1
    funext j st
    simp only [zero_add]

end FFTW.RdftS
