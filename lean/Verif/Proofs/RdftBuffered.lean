import Verif.Model.RdftBuffered
import Verif.Proofs.Buffered
import Verif.Proofs.CodeletsR
import Verif.Proofs.RdftSolvers

/-! # The buffered solver for real transforms -/

namespace FFTW.RdftS
open Tensor Spec DftS FFTW.Api

theorem bufdR_nodup {kd : RKind} {n nb bd : ℕ} (h : n ≤ bd) (s2 s3 : ℤ) :
    (ins (locT ℝ 0 0 [((⟨n, 1, s2⟩ : Dim), kd)] (some [⟨nb, (bd : ℤ), s3⟩]))).Nodup := by
  rw [ins_locT_real]
  show (offs [(n, (1 : ℤ)), (nb, (bd : ℤ))]).Nodup
  rw [offs_boxes]
  refine (nodup_boxes _).map_on ?_
  intro x hx y hy he
  simp only [List.map_cons, List.map_nil, mem_boxes] at hx hy he
  obtain ⟨k, x2, hk, hx2, rfl⟩ := box_cons.1 hx
  obtain ⟨v, x, hv, hx3, rfl⟩ := box_cons.1 hx2
  obtain ⟨k', y2, hk', hy2, rfl⟩ := box_cons.1 hy
  obtain ⟨v', y, hv', hy3, rfl⟩ := box_cons.1 hy2
  obtain rfl : x = [] := List.length_eq_zero_iff.1 (by rw [box_length hx3]; rfl)
  obtain rfl : y = [] := List.length_eq_zero_iff.1 (by rw [box_length hy3]; rfl)
  simp only [dot_cons, dot_nil] at he
  have h2 : (bd : ℤ) * v + k = bd * v' + k' := by omega
  have h3 : bd * v + k = bd * v' + k' := by exact_mod_cast h2
  have hv : v = v' := by
    have e1 : (bd * v + k) / bd = v := by rw [Nat.mul_add_div (by omega), Nat.div_eq_of_lt (by omega), add_zero]
    have e2 : (bd * v' + k') / bd = v' := by rw [Nat.mul_add_div (by omega), Nat.div_eq_of_lt (by omega), add_zero]
    rw [← e1, ← e2, h3]
  subst hv
  have : k = k' := by omega
  subst this
  rfl

variable [CLib]

theorem buffered_sound (szR which : ℕ) (taste : Taste) : (buffered szR which taste).Sound := by
  apply rdftSolver_sound
  intro p fl hk
  obtain ⟨hn0, hap, hvp, hip⟩ := kosher_rdft hk
  split
  rotate_left
  · exact good_nada
  rename_i d kind v hsz hv
  split
  rotate_left
  · exact good_nada
  rename_i vd htor
  split
  rotate_left
  · exact good_nada
  rename_i happ
  dsimp only
  obtain ⟨n, is, os⟩ := d
  have hvd1 : 1 ≤ vd.n := by
    match v, htor with
    | [], h => obtain rfl := Option.some.inj h; simp
    | [d], h => obtain rfl := Option.some.inj h; exact hvp _ hv d (by simp)
  obtain ⟨vl, ivs, ovs⟩ := vd
  have hdp : 0 < n := hn0 (⟨n, is, os⟩, kind) (by rw [hsz]; simp)
  simp only at hvd1 ⊢
  set nb := nbuf szR n vl (maxnbufs.getD which 0) with hnb
  obtain ⟨hnb1, hnbv⟩ := nbuf_bounds szR n vl (maxnbufs.getD which 0) hvd1
  rw [← hnb] at hnb1 hnbv
  set bd := bufdist n vl with hbd
  have hbdn : n ≤ bd := bufdist_ge n vl
  set bufs := planBuf [p.I, p.O] with hbufs
  have hblk : ∀ q ∈ [p.I, p.O], ∀ a b : ℤ, q + a ≠ bufs + b := by
    intro q hq a b he
    have h1 := congrArg Ptr.blk he
    have h2 : q.blk = bufs.blk := h1
    have := planBuf_blk hq
    rw [← hbufs] at this; omega
  have hIb : p.I ≠ bufs := fun h => hblk p.I (by simp) 0 0 (by rw [Ptr.add_zero, Ptr.add_zero]; exact h)
  have hOb : bufs ≠ p.O := fun h => hblk p.O (by simp) 0 0 (by rw [Ptr.add_zero, Ptr.add_zero]; exact h.symm)
  obtain ⟨happ, -⟩ := happ
  simp only [bufferedApplicable, Bool.and_eq_true] at happ
  obtain ⟨-, happ⟩ := happ
  rw [← hnb] at happ
  have hq : vl / nb * nb + vl % nb = vl := Nat.div_add_mod' vl nb
  have hle : vl / nb * nb ≤ vl := by omega
  have hpl : p.I = p.O → (ivs = ovs ∧ is = os) ∨ (vl / nb = 1 ∧ vl % nb = 0) := by
    intro h
    rw [if_neg (not_not.2 h)] at happ
    simp only [Bool.or_eq_true, decide_eq_true_eq] at happ
    have fin : nb = vl → vl / nb = 1 ∧ vl % nb = 0 := by
      intro e; rw [e]; exact ⟨Nat.div_self (by omega), Nat.mod_self _⟩
    rcases happ with (h | h) | h
    · simp only [inplaceStrides2, Bool.and_eq_true] at h
      have h2 : is = os := inplaceStrides_mem h.1 (d := ⟨n, is, os⟩) (by rw [hsz]; simp)
      match v, htor with
      | [], e =>
        have e := Option.some.inj e
        simp only [Dim.mk.injEq] at e
        exact Or.inr (fin (by omega))
      | [d], e =>
        obtain rfl := Option.some.inj e
        have h3 : ivs = ovs := inplaceStrides_mem h.2 (d := ⟨vl, ivs, ovs⟩) (by simp)
        exact Or.inl ⟨h3, h2⟩
    · match v, h, htor with
      | [], _, e =>
        have e := Option.some.inj e
        simp only [Dim.mk.injEq] at e
        exact Or.inr (fin (by omega))
    · exact Or.inr (fin h)
  have hpairs := tornk1_pairs htor
  set id : ℤ := ivs * ((nb : ℤ) * ((vl / nb : ℕ) : ℤ)) with hid
  set od : ℤ := ovs * ((nb : ℤ) * ((vl / nb : ℕ) : ℤ)) with hod
  have hid' : id = ((vl / nb * nb : ℕ) : ℤ) * ivs := by rw [hid]; push_cast; ring
  have hod' : od = ((vl / nb * nb : ℕ) : ℤ) * ovs := by rw [hod]; push_cast; ring
  have hapr : p.I ≠ p.O → Apart (locT ℝ 0 0 p.sz (some [⟨vl % nb, ivs, ovs⟩])) (p.I + id) (p.O + od) := by
    intro hne a ha b hb
    rw [Ptr.add_add, Ptr.add_add]
    apply (apart_real.2 (hap hne))
    · rw [mem_ins_locT] at ha
      obtain ⟨c, hc, s, hs, w, hw, rfl⟩ := ha
      obtain ⟨j, hj, y, hy, rfl⟩ := mem_ins_cons.1 hw
      rw [hv, mem_ins_locT, ins_eq (some v), hpairs, ← ins_eq]
      simp only at hj
      exact ⟨c, hc, s, hs, _, mem_ins_cons.2 ⟨vl / nb * nb + j, by simp only []; omega, y, hy, rfl⟩, by rw [hid']; push_cast; ring⟩
    · rw [mem_outs_locT] at hb
      obtain ⟨c, hc, s, hs, w, hw, rfl⟩ := hb
      obtain ⟨j, hj, y, hy, rfl⟩ := mem_outs_cons.1 hw
      rw [hv, mem_outs_locT, outs_eq (some v), hpairs, ← outs_eq]
      simp only at hj
      exact ⟨c, hc, s, hs, _, mem_outs_cons.2 ⟨vl / nb * nb + j, by simp only []; omega, y, hy, rfl⟩, by rw [hod']; push_cast; ring⟩
  -- the remaining transforms are run in place only if the problem is in place
  have hsame : vl % nb ≠ 0 → p.I + id = p.O + od → p.I = p.O := by
    intro hr h
    by_contra he
    refine hapr he 0 ?_ 0 ?_ (by rw [Ptr.add_zero, Ptr.add_zero]; exact h)
    · rw [mem_ins_locT]
      refine ⟨0, by simp [Elt.nc], 0, ?_, 0, mem_ins_cons.2 ⟨0, by simp only []; omega, 0, by simp [ins, offs], by simp⟩, by simp⟩
      rw [hsz]
      exact mem_ins_cons.2 ⟨0, hdp, 0, by simp [ins, offs], by simp⟩
    · rw [mem_outs_locT]
      refine ⟨0, by simp [Elt.nc], 0, ?_, 0, mem_outs_cons.2 ⟨0, by simp only []; omega, 0, by simp [outs, offs], by simp⟩, by simp⟩
      rw [hsz]
      exact mem_outs_cons.2 ⟨0, hdp, 0, by simp [outs, offs], by simp⟩
  have hz : vl % nb = 0 → pairs (some [(⟨vl % nb, ivs, ovs⟩ : Dim)]) = 0 := by intro hr; rw [pairs_cons, hr]; simp
  have hK3 : Kosher (mkproblemRdft p.sz (some [⟨vl % nb, ivs, ovs⟩]) (p.I + id) (p.O + od)) := by
    refine kosher_mkproblemRdft hn0 ?_ ?_
    · intro hne
      rw [← apart_real]
      by_cases he : p.I = p.O
      · rcases hpl he with ⟨e, -⟩ | ⟨-, e⟩
        · exact absurd (by rw [he, hid, hod, e]) hne
        · rw [e]
          intro a ha
          rw [mem_ins_locT] at ha
          obtain ⟨c, hc, s, hs, w, hw, rfl⟩ := ha
          obtain ⟨j, hj, y, hy, rfl⟩ := mem_ins_cons.1 hw
          simp at hj
      · exact hapr he
    · intro he _ ht hne
      have hr : vl % nb ≠ 0 := fun h => hne (compressContiguous_empty (hz h))
      have hIO := hsame hr he
      rcases hpl hIO with ⟨e, -⟩ | ⟨-, e⟩
      · refine ⟨(hk.2 hIO ht v hv).1, ?_⟩
        rintro _ ⟨⟩ x hx _
        obtain rfl := List.mem_singleton.1 hx
        exact e
      · exact absurd e hr
  have hG3' : ∀ c3, Sound fl.nd (mkproblemRdft p.sz (some [⟨vl % nb, ivs, ovs⟩]) (p.I + id) (p.O + od)) c3 →
      ∃ ip2 : Bool, GOK rK p.sz (some [⟨vl % nb, ivs, ovs⟩]) 0 0 ip2 fl.nd c3.rdftApply ∧
        (ip2 = true → decide (p.I = p.O) = true ∧ ivs = ovs) ∧ (ip2 = false → decide (p.I = p.O) = false ∨ vl % nb = 0) := by
    intro c3 h3
    by_cases hr : vl % nb = 0
    · exact ⟨false, sound_mkproblemRdft_empty (sz' := p.sz) (hz hr) (hz hr) h3 false, by simp, fun _ => Or.inr hr⟩
    · obtain ⟨hG3, -⟩ := sound_mkproblemRdft hn0 h3
      by_cases he : p.I = p.O
      · rcases hpl he with ⟨e, -⟩ | ⟨-, e⟩
        · refine ⟨_, hG3, fun _ => ⟨by simp [he], e⟩, fun h => ?_⟩
          rw [decide_eq_false_iff_not] at h
          exact absurd (by rw [he, hid, hod, e]) h
        · exact absurd e hr
      · refine ⟨_, hG3, fun h => ?_, fun _ => by simp [he]⟩
        rw [decide_eq_true_eq] at h
        exact absurd (hsame hr h) he
  -- all rounds
  have fin : ∀ (f g : Ptr → Ptr → State → State) (c3 : Plan), Sound fl.nd (mkproblemRdft p.sz (some [⟨vl % nb, ivs, ovs⟩]) (p.I + id) (p.O + od)) c3 →
      GOK rK [((⟨n, is, os⟩ : Dim), kind)] (some [⟨nb, ivs, ovs⟩]) 0 0 (decide (p.I = p.O)) fl.nd f →
      (∀ I O st, g I O st =
        (fun r : State × ℕ => c3.rdftApply (I + (r.2 : ℤ) * (ivs * (nb : ℤ))) (O + (r.2 : ℤ) * (ovs * (nb : ℤ))) r.1)
          (bufLoop nb vl (fun k => f (I + (k : ℤ) * (ivs * (nb : ℤ))) (O + (k : ℤ) * (ovs * (nb : ℤ)))) nb 0 st)) →
      Sound fl.nd (.rdft p) (.rdft g) := by
    intro f g c3 h3 piece hg
    refine soundRdft (by simp [hv]) ?_
    rw [hsz, hv]
    refine GOK.vec_congr ?_ hpairs
    obtain ⟨ip2, hG3, hA, hB⟩ := hG3' c3 h3
    rw [hsz] at hG3
    have all := GOK_chunks (q := vl / nb) piece hG3 (by
      intro h
      have he := of_decide_eq_true h
      rcases hpl he with ⟨e1, e2⟩ | e
      · refine Or.inl ⟨e1, fun k => ?_⟩
        rw [ins_locT_real, outs_locT_real, e1, e2]; rfl
      · exact Or.inr e) hA hB
    rw [hq] at all
    refine all.congr fun I O st => ?_
    rw [hg, bufLoop_eq (by omega) _ _ _ _ (by omega) (by omega)]
    simp only [Nat.sub_zero, zero_add]
    have e1 : ∀ s : ℤ, ((vl / nb : ℕ) : ℤ) * (s * (nb : ℤ)) = ((vl / nb * nb : ℕ) : ℤ) * s := by intro s; push_cast; ring
    have e2 : ∀ (i : ℕ) (s : ℤ), (i : ℤ) * (s * (nb : ℤ)) = (i : ℤ) * ((nb : ℤ) * s) := by intro i s; ring
    simp only [e1, e2]
  have hd1 : PosK [((⟨n, 1, os⟩ : Dim), kind)] := by intro e he; obtain rfl := List.mem_singleton.1 he; exact hdp
  have hd2 : PosK [((⟨n, is, 1⟩ : Dim), kind)] := by intro e he; obtain rfl := List.mem_singleton.1 he; exact hdp
  have hnil : PosK [] := by intro e he; simp at he
  split
  · -- halfcomplex input: copied to the buffer first
    apply good_need
    · refine kosher_mkproblemRdft hd1 (fun _ a _ b _ => (hblk _ (by simp) _ _).symm) (fun h => absurd h hOb)
    intro c1 h1
    rw [nd_destroyInput] at h1
    obtain ⟨hG1, -⟩ := sound_mkproblemRdft hd1 h1
    rw [decide_eq_false hOb] at hG1
    apply good_need
    · exact kosher_mkproblemRdft hnil (fun _ a _ b _ => hblk _ (by simp) _ _)
    intro c2 h2
    rw [modify_default] at h2
    obtain ⟨hG2, -⟩ := sound_mkproblemRdft hnil h2
    rw [decide_eq_false hIb] at hG2
    apply good_need hK3
    intro c3 h3
    rw [modify_default] at h3
    apply good_ret
    refine fin _ _ c3 h3 (GOK_bufIn (K := rK) (szm := [((⟨n, is, os⟩, kind), 1)]) (vm := [(⟨nb, ivs, ovs⟩, (bd : ℤ))]) (e := 0) (inpl := decide (p.I = p.O))
      (nd := fl.nd) hG2 hG1 (bufdR_nodup hbdn _ _) (fun h => Or.inl h)) ?_
    intro I O st
    simp only [Ptr.add_zero]
  · apply good_need
    · refine kosher_mkproblemRdft hd2 (fun _ a _ b _ => hblk _ (by simp) _ _) (fun h => absurd h hIb)
    intro c1 h1
    obtain ⟨hG1, -⟩ := sound_mkproblemRdft hd2 h1
    rw [decide_eq_false hIb] at hG1
    apply good_need
    · exact kosher_mkproblemRdft hnil (fun _ a _ b _ => (hblk _ (by simp) _ _).symm)
    intro c2 h2
    rw [modify_default] at h2
    obtain ⟨hG2, -⟩ := sound_mkproblemRdft hnil h2
    rw [decide_eq_false hOb] at hG2
    apply good_need hK3
    intro c3 h3
    rw [modify_default] at h3
    apply good_ret
    have hnd : (fl.modify { ureset := if p.I = p.O then NO_DESTROY_INPUT else 0 }).nd = if p.I = p.O then false else fl.nd := by
      split
      · exact nd_destroyInput fl
      · exact congrArg Flags.nd (modify_default fl)
    rw [hnd] at hG1
    refine fin _ _ c3 h3 (GOK_bufOut (K := rK) (szm := [((⟨n, is, os⟩, kind), 1)]) (vm := [(⟨nb, ivs, ovs⟩, (bd : ℤ))]) (e := 0) (inpl := decide (p.I = p.O))
      (nd := fl.nd) hG1 hG2 (bufdR_nodup hbdn _ _) (by
        intro h
        by_cases he : p.I = p.O
        · right; simp [he]
        · left; simp [he, h])) ?_
    intro I O st
    simp only [Ptr.add_zero]

end FFTW.RdftS
