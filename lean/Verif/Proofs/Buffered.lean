import Verif.Model.Buffered
import Verif.Proofs.Codelets
import Verif.Proofs.DftCt

/-! # The buffered solver -/

namespace FFTW.Spec
open FFTW.Tensor

variable {V τ : Type} [CommRing V] [Elt V] {K : τ → ℕ → ℕ → ℕ → V}

/-- `q` rounds of `nb` transforms, then the remaining `r` -/
theorem GOK_chunks {sz : List (Dim × τ)} {δi δo : ℤ} {inpl ip2 nd : Bool} {f g : Ptr → Ptr → State → State} {q nb r : ℕ} {ivs ovs : ℤ}
    (hp : GOK K sz (some [⟨nb, ivs, ovs⟩]) δi δo inpl nd f) (hg : GOK K sz (some [⟨r, ivs, ovs⟩]) δi δo ip2 nd g)
    (hpl : inpl = true → (ivs = ovs ∧ ∀ k, ins (locT V δi δo sz (some [⟨k, ivs, ovs⟩])) = outs (locT V δi δo sz (some [⟨k, ivs, ovs⟩]))) ∨ (q = 1 ∧ r = 0))
    (hA : ip2 = true → inpl = true ∧ ivs = ovs) (hB : ip2 = false → inpl = false ∨ r = 0) :
    GOK K sz (some [⟨q * nb + r, ivs, ovs⟩]) δi δo inpl nd (fun I O st =>
      g (I + ((q * nb : ℕ) : ℤ) * ivs) (O + ((q * nb : ℕ) : ℤ) * ovs)
        (forN q (fun i => f (I + (i : ℤ) * ((nb : ℤ) * ivs)) (O + (i : ℤ) * ((nb : ℤ) * ovs))) st)) := by
  intro wf
  have hz : ∀ s t : ℤ, pairs (some [(⟨0, s, t⟩ : Dim)]) = 0 := by intro s t; rw [pairs_cons]; simp
  have hq : inpl = true → (ivs = ovs ∧ ∀ k, ins (locT V δi δo sz (some [⟨k, ivs, ovs⟩])) = outs (locT V δi δo sz (some [⟨k, ivs, ovs⟩]))) ∨
      (q = 1 ∧ r = 0 ∧ ins (locT V δi δo sz (some [⟨nb, ivs, ovs⟩])) = outs (locT V δi δo sz (some [⟨nb, ivs, ovs⟩]))) := by
    intro h
    rcases hpl h with h' | ⟨rfl, rfl⟩
    · exact Or.inl h'
    · refine Or.inr ⟨rfl, rfl, ?_⟩
      have := wf.eq h
      simpa using this
  by_cases h1 : inpl = true ∧ q = 1 ∧ r = 0
  · obtain ⟨rfl, rfl, rfl⟩ := h1
    have hn : (1 : ℕ) * nb + 0 = nb := by omega
    have e1 : ins (locT V δi δo sz (some [⟨nb, ivs, ovs⟩])) = outs (locT V δi δo sz (some [⟨nb, ivs, ovs⟩])) := by
      have := wf.eq rfl; rwa [hn] at this
    have e0 : ins (locT V δi δo sz (some [⟨0, ivs, ovs⟩])) = outs (locT V δi δo sz (some [⟨0, ivs, ovs⟩])) := by
      have : pairs (locT V δi δo sz (some [⟨0, ivs, ovs⟩])) = 0 := by rw [pairs_locT, hz]; simp
      rw [ins_eq, outs_eq, this]; rfl
    have := GOK_concat (a := nb) hp hg (fun _ => e1) (fun _ => e0) (fun h => ⟨rfl, by rw [(hA h).2]⟩) (fun _ => Or.inr (hz _ _))
    have h3 := this.congr (g := fun I O st =>
      g (I + ((1 * nb : ℕ) : ℤ) * ivs) (O + ((1 * nb : ℕ) : ℤ) * ovs)
        (forN 1 (fun i => f (I + (i : ℤ) * ((nb : ℤ) * ivs)) (O + (i : ℤ) * ((nb : ℤ) * ovs))) st)) fun I O st => by
      rw [one_mul]; simp [forN]
    rw [show nb + 0 = 1 * nb + 0 by omega] at h3
    exact h3 wf
  · have h2 : inpl = true → ivs = ovs ∧ ∀ k, ins (locT V δi δo sz (some [⟨k, ivs, ovs⟩])) = outs (locT V δi δo sz (some [⟨k, ivs, ovs⟩])) := by
      intro h
      rcases hpl h with h' | h'
      · exact h'
      · exact absurd ⟨h, h'⟩ h1
    have loop := GOK_loop (d := ⟨q, (nb : ℤ) * ivs, (nb : ℤ) * ovs⟩) hp (fun h => (h2 h).2 _) (fun h => by simp only [(h2 h).1])
    have loop' := loop.vec_congr (vec := some [⟨q * nb, ivs, ovs⟩])
      (pairs_merge ⟨q, (nb : ℤ) * ivs, (nb : ℤ) * ovs⟩ ⟨nb, ivs, ovs⟩ [] (by simp only []; ring) (by simp only []; ring)).symm
    exact GOK_concat loop' hg (fun h => (h2 h).2 _) (fun h => (h2 h).2 _) (fun h => ⟨(hA h).1, by rw [(hA h).2]⟩)
      (fun h => (hB h).imp_right fun h => by rw [h]; exact hz _ _) wf

end FFTW.Spec

namespace FFTW.DftS
open Tensor Spec FFTW.Api

theorem nbufSearch_spec {vl lb i k : ℕ} (h : nbufSearch vl lb i = some k) : 1 ≤ k ∧ k ≤ i ∧ lb ≤ k ∧ vl % k = 0 := by
  induction i with
  | zero => simp [nbufSearch] at h
  | succ i ih =>
    rw [nbufSearch] at h
    split at h
    · simp at h
    · split at h
      · obtain rfl := Option.some.inj h; omega
      · have := ih h; omega

/-- there is at least one buffer, and no more than transforms -/
theorem nbuf_bounds (szR n vl mx : ℕ) (hv : 1 ≤ vl) : 1 ≤ nbuf szR n vl mx ∧ nbuf szR n vl mx ≤ vl := by
  unfold nbuf
  dsimp only
  set m := (if mx = 0 then 256 else mx) with hm
  have hm1 : 1 ≤ m := by rw [hm]; split <;> omega
  set b := min m (min vl (max 1 (maxbufsz szR / n))) with hb
  have h1 : 1 ≤ b := by rw [hb]; omega
  have h2 : b ≤ vl := by rw [hb]; omega
  cases h : nbufSearch vl (max 1 (b / 4)) b with
  | none => exact ⟨h1, h2⟩
  | some k => have := nbufSearch_spec h; exact ⟨this.1, le_trans this.2.1 h2⟩

/-- buffers do not overlap -/
theorem bufdist_ge (n vl : ℕ) : n ≤ bufdist n vl := by unfold bufdist; split <;> omega

theorem bufLoop_eq {nb vl : ℕ} (hnb : 0 < nb) (body : ℕ → State → State) (i k : ℕ) (st : State) (hi : i = (k + 1) * nb) (hk : k * nb ≤ vl) :
    bufLoop nb vl body i k st = (forN (vl / nb - k) (fun j => body (k + j)) st, vl / nb) := by
  generalize hq : vl / nb - k = q
  induction q generalizing i k st with
  | zero =>
    have h1 : k ≤ vl / nb := (Nat.le_div_iff_mul_le hnb).2 hk
    have h2 : k = vl / nb := by omega
    rw [bufLoop, dif_neg, forN, h2]
    rintro ⟨-, h⟩
    rw [hi] at h
    have := (Nat.le_div_iff_mul_le hnb).2 h
    omega
  | succ q ih =>
    have h3 : (k + 1) * nb ≤ vl := by
      rw [← Nat.le_div_iff_mul_le hnb]; omega
    rw [bufLoop, dif_pos ⟨hnb, by rw [hi]; exact h3⟩, ih (i + nb) (k + 1) _ (by rw [hi]; ring) h3 (by omega)]
    congr 1
    have : ∀ (q : ℕ) (st : State), forN q (fun j => body (k + 1 + j)) (body k st) = forN (q + 1) (fun j => body (k + j)) st := by
      intro q
      induction q with
      | zero => intro st; simp [forN]
      | succ q ih2 =>
        intro st
        rw [forN, ih2 st]
        conv_rhs => rw [forN]
        rw [show k + 1 + q = k + (q + 1) by omega]
    exact this q st

theorem planBuf_blk {l : List Ptr} {p : Ptr} (h : p ∈ l) : p.blk < (planBuf l).blk := by
  unfold planBuf
  induction l with
  | nil => simp at h
  | cons a l ih =>
    simp only [List.foldr_cons]
    rcases List.mem_cons.1 h with rfl | h
    · omega
    · have := ih h; simp only at this ⊢; omega

theorem nd_destroyInput (fl : Flags) : (fl.modify { ureset := NO_DESTROY_INPUT }).nd = false := by
  simp only [Flags.nd, Flags.modify, NO_DESTROY_INPUT]
  have : ∀ x : BitVec 20, (x &&& ~~~0x1000 ||| 0) &&& 0x1000 = 0 := by
    intro x
    ext i hi
    simp only [BitVec.getElem_and, BitVec.getElem_or, BitVec.getElem_not]
    have : i < 20 := hi
    interval_cases i <;> simp
  exact decide_eq_false (not_not.2 (this _))

theorem bufd_nodup {n nb bd : ℕ} (h : n ≤ bd) {δ : ℤ} (hδ : δ = 1 ∨ δ = -1) (s1 s2 s3 : ℤ) :
    (ins (locT ℂ δ s1 [((⟨n, 2, s2⟩ : Dim), ())] (some [⟨nb, (bd : ℤ) * 2, s3⟩]))).Nodup := by
  show (offs [(2, δ), (n, (2 : ℤ)), (nb, (bd : ℤ) * 2)]).Nodup
  rw [offs_boxes]
  refine (nodup_boxes _).map_on ?_
  intro x hx y hy he
  simp only [List.map_cons, List.map_nil, mem_boxes] at hx hy he
  obtain ⟨c, x1, hc, hx1, rfl⟩ := box_cons.1 hx
  obtain ⟨k, x2, hk, hx2, rfl⟩ := box_cons.1 hx1
  obtain ⟨v, x, hv, hx3, rfl⟩ := box_cons.1 hx2
  obtain ⟨c', y1, hc', hy1, rfl⟩ := box_cons.1 hy
  obtain ⟨k', y2, hk', hy2, rfl⟩ := box_cons.1 hy1
  obtain ⟨v', y, hv', hy3, rfl⟩ := box_cons.1 hy2
  obtain rfl : x = [] := List.length_eq_zero_iff.1 (by rw [box_length hx3]; rfl)
  obtain rfl : y = [] := List.length_eq_zero_iff.1 (by rw [box_length hy3]; rfl)
  simp only [dot_cons, dot_nil] at he
  have e1 : (bd : ℤ) * 2 * v = 2 * (bd * v) := by ring
  have e2 : (bd : ℤ) * 2 * v' = 2 * (bd * v') := by ring
  have h1 : c = c' := by rcases hδ with rfl | rfl <;> omega
  subst h1
  have h2 : (bd : ℤ) * v + k = bd * v' + k' := by omega
  have h3 : bd * v + k = bd * v' + k' := by exact_mod_cast h2
  have hv : v = v' := by
    have e1 : (bd * v + k) / bd = v := by rw [Nat.mul_add_div (by omega), Nat.div_eq_of_lt (by omega), add_zero]
    have e2 : (bd * v' + k') / bd = v' := by rw [Nat.mul_add_div (by omega), Nat.div_eq_of_lt (by omega), add_zero]
    rw [← e1, ← e2, h3]
  subst hv
  have : k = k' := by omega
  subst this
  rfl

variable [CLib]

theorem buffered_sound (szR which : ℕ) (taste : Taste) : (buffered szR which taste).Sound := by
  apply dftSolver_sound
  intro p fl hk
  obtain ⟨⟨hn1, hn0, hap⟩, hn2, hip⟩ := kosher_dft hk
  split
  rotate_left
  · exact good_nada
  rename_i d v hsz hv
  split
  rotate_left
  · exact good_nada
  rename_i vd htor
  split
  rotate_left
  · exact good_nada
  rename_i happ
  dsimp only
  obtain ⟨n, is, os⟩ := d
  have hvd1 : 1 ≤ vd.n := by
    match v, htor with
    | [], h => obtain rfl := Option.some.inj h; simp
    | [d], h => obtain rfl := Option.some.inj h; have := (hk.2.2.2 _ hv d (by simp)).2.2; omega
  obtain ⟨hvi, hvo⟩ := tornk1_nonneg htor (nonNegV_some.1 (hv ▸ hn2))
  obtain ⟨vl, ivs, ovs⟩ := vd
  have hdn := hn1 ⟨n, is, os⟩ (by rw [hsz]; simp)
  have hdp := hn0 ⟨n, is, os⟩ (by rw [hsz]; simp)
  simp only at hvd1 hvi hvo hdn hdp ⊢
  set nb := nbuf szR n vl (maxnbufs.getD which 0) with hnb
  obtain ⟨hnb1, hnbv⟩ := nbuf_bounds szR n vl (maxnbufs.getD which 0) hvd1
  rw [← hnb] at hnb1 hnbv
  set bd := bufdist n vl with hbd
  have hbdn : n ≤ bd := bufdist_ge n vl
  set bufs := planBuf [p.ri, p.ii, p.ro, p.io] with hbufs
  obtain ⟨roff, hroff⟩ : ∃ r : ℤ, r = if (p.ri - p.ii : ℤ) > (0 : ℤ) then 1 else 0 := ⟨_, rfl⟩
  rw [← hroff]
  have hro : roff = 0 ∨ roff = 1 := by rw [hroff]; split <;> simp
  have hδ : (1 - roff - roff = 1) ∨ (1 - roff - roff = -1) := by rcases hro with rfl | rfl <;> simp
  have hsub : Unit → (bufs + (1 - roff) - (bufs + roff) : ℤ) = 1 - roff - roff := by
    intro _; show bufs.off + (1 - roff) - (bufs.off + roff) = _; ring
  have hblk : ∀ q ∈ [p.ri, p.ii, p.ro, p.io], ∀ a b : ℤ, q + a ≠ bufs + b := by
    intro q hq a b he
    have h1 := congrArg Ptr.blk he
    have h2 : q.blk = bufs.blk := h1
    have := planBuf_blk hq
    rw [← hbufs] at this; omega
  obtain ⟨happ, -⟩ := happ
  simp only [bufferedApplicable, Bool.and_eq_true] at happ
  obtain ⟨-, happ⟩ := happ
  rw [← hnb] at happ
  have hq : vl / nb * nb + vl % nb = vl := Nat.div_add_mod' vl nb
  have hle : vl / nb * nb ≤ vl := by omega
  have hpl : p.ri = p.ro → (ivs = ovs ∧ is = os) ∨ (vl / nb = 1 ∧ vl % nb = 0) := by
    intro h
    rw [if_neg (not_not.2 h)] at happ
    simp only [Bool.or_eq_true, decide_eq_true_eq] at happ
    have fin : nb = vl → vl / nb = 1 ∧ vl % nb = 0 := by
      intro e; rw [e]; exact ⟨Nat.div_self (by omega), Nat.mod_self _⟩
    rcases happ with (h | h) | h
    · simp only [inplaceStrides2, Bool.and_eq_true] at h
      have h2 : is = os := inplaceStrides_mem h.1 (d := ⟨n, is, os⟩) (by rw [hsz]; simp)
      match v, htor with
      | [], e =>
        have e := Option.some.inj e
        simp only [Dim.mk.injEq] at e
        exact Or.inr (fin (by omega))
      | [d], e =>
        obtain rfl := Option.some.inj e
        have h3 : ivs = ovs := inplaceStrides_mem h.2 (d := ⟨vl, ivs, ovs⟩) (by simp)
        exact Or.inl ⟨h3, h2⟩
    · match v, h, htor with
      | [], _, e =>
        have e := Option.some.inj e
        simp only [Dim.mk.injEq] at e
        exact Or.inr (fin (by omega))
    · exact Or.inr (fin h)
  have hpairs := tornk1_pairs htor
  apply good_need
  · refine kosher_mkproblemDft ?_ ?_ ?_ ?_
    · simpa [NonNeg] using hdn.1
    · rw [nonNegV_some]; simp only [NonNeg, List.mem_singleton, forall_eq]; exact ⟨hvi, by positivity⟩
    · simpa [Pos] using hdp
    · intro _ a _ b _
      rw [Ptr.add_add]
      exact hblk _ (by simp) _ _
  intro c1 h1
  obtain ⟨hG1, -⟩ := sound_mkproblemDft h1
  rw [hsub (), decide_eq_false (fun h => hblk p.ri (by simp) 0 roff (by rw [Ptr.add_zero]; exact h))] at hG1
  apply good_need
  · refine kosher_mkproblemDft nonNeg_nil ?_ pos_nil ?_
    · rw [nonNegV_some]; simp only [NonNeg, List.mem_cons, List.not_mem_nil, or_false, forall_eq_or_imp, forall_eq]
      exact ⟨⟨by positivity, hvo⟩, by norm_num, hdn.2⟩
    · intro _ a _ b _
      rw [Ptr.add_add]
      exact (hblk _ (by simp) _ _).symm
  intro c2 h2
  rw [modify_default] at h2
  obtain ⟨hG2, -⟩ := sound_mkproblemDft h2
  rw [hsub (), decide_eq_false (fun h => hblk p.ro (by simp) 0 roff (by rw [Ptr.add_zero]; exact h.symm))] at hG2
  set id : ℤ := ivs * ((nb : ℤ) * ((vl / nb : ℕ) : ℤ)) with hid
  set od : ℤ := ovs * ((nb : ℤ) * ((vl / nb : ℕ) : ℤ)) with hod
  have hid' : id = ((vl / nb * nb : ℕ) : ℤ) * ivs := by rw [hid]; push_cast; ring
  have hod' : od = ((vl / nb * nb : ℕ) : ℤ) * ovs := by rw [hod]; push_cast; ring
  have hapr : p.ri ≠ p.ro → Apart (locT ℂ (p.ii - p.ri) (p.io - p.ro) (tag p.sz) (some [⟨vl % nb, ivs, ovs⟩])) (p.ri + id) (p.ro + od) := by
    intro hne a ha b hb
    rw [Ptr.add_add, Ptr.add_add]
    apply hap hne
    · rw [mem_ins_locT] at ha
      obtain ⟨c, hc, s, hs, w, hw, rfl⟩ := ha
      obtain ⟨j, hj, y, hy, rfl⟩ := mem_ins_cons.1 hw
      rw [hv, mem_ins_locT, ins_eq (some v), hpairs, ← ins_eq]
      simp only at hj
      exact ⟨c, hc, s, hs, _, mem_ins_cons.2 ⟨vl / nb * nb + j, by simp only []; omega, y, hy, rfl⟩, by rw [hid']; push_cast; ring⟩
    · rw [mem_outs_locT] at hb
      obtain ⟨c, hc, s, hs, w, hw, rfl⟩ := hb
      obtain ⟨j, hj, y, hy, rfl⟩ := mem_outs_cons.1 hw
      rw [hv, mem_outs_locT, outs_eq (some v), hpairs, ← outs_eq]
      simp only at hj
      exact ⟨c, hc, s, hs, _, mem_outs_cons.2 ⟨vl / nb * nb + j, by simp only []; omega, y, hy, rfl⟩, by rw [hod']; push_cast; ring⟩
  apply good_need
  · refine kosher_mkproblemDft hn1 ?_ hn0 ?_
    · rw [nonNegV_some]; simpa [NonNeg] using ⟨hvi, hvo⟩
    · intro hne
      rw [ptr_shift_sub, ptr_shift_sub]
      by_cases he : p.ri = p.ro
      · rcases hpl he with ⟨e, -⟩ | ⟨-, e⟩
        · exact absurd (by rw [he, hid, hod, e]) hne
        · rw [e]
          intro a ha
          rw [mem_ins_locT] at ha
          obtain ⟨c, hc, s, hs, w, hw, rfl⟩ := ha
          obtain ⟨j, hj, y, hy, rfl⟩ := mem_ins_cons.1 hw
          simp at hj
      · exact hapr he
  intro c3 h3
  rw [modify_default] at h3
  apply good_ret
  refine soundDft (by simp [hv]) ?_
  rw [hsz, hv]
  refine GOK.vec_congr ?_ hpairs
  -- one round
  have hnd : (fl.modify { ureset := if p.ri = p.ro then NO_DESTROY_INPUT else 0 }).nd = if p.ri = p.ro then false else fl.nd := by
    split
    · exact nd_destroyInput fl
    · exact congrArg Flags.nd (modify_default fl)
  rw [hnd] at hG1
  have piece := GOK_bufOut (K := dftK) (szm := [((⟨n, is, os⟩, ()), 2)]) (vm := [(⟨nb, ivs, ovs⟩, (bd : ℤ) * 2)]) (e := roff) (inpl := decide (p.ri = p.ro)) (nd := fl.nd)
    (f1 := fun I O => c1.dftApply I (I + (p.ii - p.ri)) O (O + (1 - roff - roff)))
    (f2 := fun I O => c2.dftApply I (I + (1 - roff - roff)) O (O + (p.io - p.ro)))
    hG1 hG2 (bufd_nodup hbdn hδ _ _ _) (by
      intro h
      by_cases he : p.ri = p.ro
      · right; simp [he]
      · left; simp [he, h])
  -- the rest
  obtain ⟨ip2, hG3, hA, hB⟩ : ∃ ip2 : Bool, GOK dftK (tag p.sz) (some [⟨vl % nb, ivs, ovs⟩]) (p.ii - p.ri) (p.io - p.ro) ip2 fl.nd
      (fun I O => c3.dftApply I (I + (p.ii - p.ri)) O (O + (p.io - p.ro))) ∧ (ip2 = true → decide (p.ri = p.ro) = true ∧ ivs = ovs) ∧
      (ip2 = false → decide (p.ri = p.ro) = false ∨ vl % nb = 0) := by
    by_cases hr : vl % nb = 0
    · refine ⟨false, ?_, by simp, fun _ => Or.inr hr⟩
      have hz : pairs (some [(⟨vl % nb, ivs, ovs⟩ : Dim)]) = 0 := by rw [pairs_cons, hr]; simp
      have := sound_mkproblemDft_empty (sz' := p.sz) hz hz h3 false
      rwa [ptr_shift_sub, ptr_shift_sub] at this
    · obtain ⟨hG3, -⟩ := sound_mkproblemDft h3
      rw [ptr_shift_sub, ptr_shift_sub] at hG3
      by_cases he : p.ri = p.ro
      · rcases hpl he with ⟨e, -⟩ | ⟨-, e⟩
        · refine ⟨_, hG3, fun _ => ⟨by simp [he], e⟩, fun h => ?_⟩
          rw [decide_eq_false_iff_not] at h
          exact absurd (by rw [he, hid, hod, e]) h
        · exact absurd e hr
      · refine ⟨_, hG3, fun h => ?_, fun _ => by simp [he]⟩
        rw [decide_eq_true_eq] at h
        exfalso
        refine hapr he 0 ?_ 0 ?_ (by rw [Ptr.add_zero, Ptr.add_zero]; exact h)
        · rw [mem_ins_locT]
          refine ⟨0, by simp [Elt.nc], 0, ?_, 0, mem_ins_cons.2 ⟨0, by simp only []; omega, 0, by simp [ins, offs], by simp⟩, by simp⟩
          rw [map_fst_tag, hsz]
          exact mem_ins_cons.2 ⟨0, hdp, 0, by simp [ins, offs], by simp⟩
        · rw [mem_outs_locT]
          refine ⟨0, by simp [Elt.nc], 0, ?_, 0, mem_outs_cons.2 ⟨0, by simp only []; omega, 0, by simp [outs, offs], by simp⟩, by simp⟩
          rw [map_fst_tag, hsz]
          exact mem_outs_cons.2 ⟨0, hdp, 0, by simp [outs, offs], by simp⟩
  rw [hsz] at hG3
  have all := GOK_chunks (q := vl / nb) piece hG3 (by
    intro h
    have he := of_decide_eq_true h
    rcases hpl he with ⟨e1, e2⟩ | e
    · refine Or.inl ⟨e1, fun k => ?_⟩
      rw [(hip h).1, he]
      exact ins_eq_outs_of_strides (by simpa using e2) (by simpa using e1)
    · exact Or.inr e) hA hB
  rw [hq] at all
  refine all.congr fun I O st => ?_
  rw [bufLoop_eq (by omega) _ _ _ _ (by omega) (by omega)]
  simp only [Nat.sub_zero, zero_add, Ptr.add_add]
  have e1 : ∀ s : ℤ, ((vl / nb : ℕ) : ℤ) * (s * (nb : ℤ)) = ((vl / nb * nb : ℕ) : ℤ) * s := by intro s; push_cast; ring
  have e2 : ∀ (i : ℕ) (s : ℤ), (i : ℤ) * (s * (nb : ℤ)) = (i : ℤ) * ((nb : ℤ) * s) := by intro i s; ring
  simp only [e1, e2]
  have e3 : roff + (1 - roff - roff) = 1 - roff := by ring
  simp only [e3, add_comm (p.ii - p.ri : ℤ), add_comm (p.io - p.ro : ℤ)]

end FFTW.DftS
