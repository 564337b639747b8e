import Verif.Proofs.MpiSound

/-! `mpi/transpose-alltoall.c`, `mpi/transpose-pairwise.c` are sound -/

namespace FFTW.Mpi
open Tensor Spec RdftS
variable [CLib] {p : TransP}

theorem TransP.Ok.nin_le (h : p.Ok) {me : ℕ} (hme : me < p.comm.length) : p.b me * p.ny * p.vn ≤ p.space (p.comm.at me) := h.roomIn me hme
theorem TransP.Ok.nout_le (h : p.Ok) {me : ℕ} (hme : me < p.comm.length) : p.nout me ≤ p.space (p.comm.at me) := h.roomOut me hme

theorem TransP.Ok.len (h : p.Ok) : 0 < p.comm.length := by
  by_contra hc
  have h0 : p.comm.length = 0 := by omega
  have := h.pes
  rw [h0] at this
  have := h.nx
  omega

/-- the arrays of process 0 are not empty -/
theorem TransP.Ok.space0 (h : p.Ok) : 0 < p.space (p.comm.at 0) := by
  have h1 := h.roomIn 0 h.len
  have h2 : 0 < Mpi.block p.nx p.block 0 := by
    rw [block_eq]
    have := h.nx
    have := h.blk
    omega
  have := Nat.mul_pos (Nat.mul_pos h2 h.ny) h.vn
  omega

/-- arrays apart -/
theorem far_of (h : p.Ok) {I O : ℕ → Ptr} {st : Dist} (hc : MCompat p.comm p.space p.inpl I O st) (hi : ¬ p.inpl) {me : ℕ} (hme : me < p.comm.length) :
    Far (I (p.comm.at me)) (O (p.comm.at me)) (p.space (p.comm.at me)) := hc.disj hi _ (at_mem hme)

theorem far0 (h : p.Ok) (hi : ¬ p.inpl) {me : ℕ} (hme : me < p.comm.length) :
    Far (p.I (p.comm.at me)) (p.O (p.comm.at me)) (p.space (p.comm.at me)) := h.apart.disj hi _ (at_mem hme)

omit [CLib] in
theorem Far.mono {P Q : Ptr} {n m : ℕ} (h : Far P Q n) (hm : m ≤ n) : Far P Q m := fun x hx y hy => h x (by omega) y (by omega)
omit [CLib] in
theorem Far.symm {P Q : Ptr} {n : ℕ} (h : Far P Q n) : Far Q P n := fun x hx y hy e => h y hy x hx e.symm

/-- plan-time pointers: equal exactly for in-place problems -/
theorem eq_iff_inpl (h : p.Ok) {me : ℕ} (hme : me < p.comm.length) : p.I (p.comm.at me) = p.O (p.comm.at me) ↔ p.inpl :=
  ⟨fun e => by by_contra hi; exact h.apart.ne hi _ (at_mem hme) e, fun hi => h.apart.same hi _ (at_mem hme)⟩

/-- a whole-array copy -/
theorem line_copy (n : ℕ) : Copy [⟨n, 1, 1⟩] n n :=
  ⟨(Nest.one n).fits (List.Perm.refl _) le_rfl, (Nest.one n).fits (List.Perm.refl _) le_rfl⟩

theorem colOff_lt (h : p.Ok) {i j v : ℕ} (hi : i < p.nx) (hj : j < p.ny) (hv : v < p.vn) : colOff p.nx p.vn p.block i j v < p.b (i / p.block) * p.ny * p.vn := by
  have hxl : i % p.block < p.b (i / p.block) := block_mod hi h.blk.1
  have := lin_lt (lin_lt hj hxl) hv
  unfold colOff
  rwa [Nat.mul_comm (p.b _)]

theorem alltoall_sound (copyIn : Bool) : (transposeAlltoall copyIn).Sound := by
  intro pr fl hk
  cases pr with
  | dft p => exact fun f hf => by simp at hf
  | rdft p => exact fun f hf => by simp at hf
  | transpose p =>
  have h : p.Ok := hk
  show (alltoallMk copyIn p fl).Good fl _
  unfold alltoallMk
  simp only
  by_cases ha : alltoallApplicable copyIn p fl = true
  swap
  · rw [if_pos (by simpa using ha)]
    exact fun f hf => by simp at hf
  rw [if_neg (by simp [ha])]
  unfold alltoallApplicable at ha
  simp only [Bool.and_eq_true, decide_eq_true_eq, Bool.or_eq_true, Bool.not_eq_true'] at ha
  obtain ⟨⟨⟨hi, hnd⟩, hti⟩, _⟩ := ha
  by_cases hA : (p.flags.transposedIn && !copyIn) = true
  · rw [if_pos hA]
    have htin : p.flags.transposedIn = true := by simp at hA; exact hA.1
    refine mkplansPost_good h.blk.1 h.vn (fun f hf => by simp at hf) (fun me hme hne => absurd rfl hne) fun post hpost f hf => ?_
    obtain rfl := Option.some.inj hf
    intro I O st hc
    have hx := exchangeAll_ok (p := p) h.nodup (S := I) (R := O) (fun me hme x hx y hy => far_of h hc hi hme x
      (lt_of_lt_of_le hx (h.nin_le hme)) y (lt_of_lt_of_le hy (h.nout_le hme))) st
    simp only
    have hpo : ∀ me < p.comm.length, _ := fun me hme => post_ok (hpost me hme) h.blk.1 h.vn (P := O (p.comm.at me)) (Q := O (p.comm.at me))
      (fun hne => absurd rfl hne) (fun _ => rfl) (fun hne => absurd rfl hne) (st := exchangeAll p I O st (p.comm.at me))
      (lt_of_lt_of_le (hc.blkO _ (at_mem hme)) (hx.frame me hme).next) (lt_of_lt_of_le (hc.blkO _ (at_mem hme)) (hx.frame me hme).next)
    refine ⟨mframe ?_ ?_, ?_⟩
    · intro w hw
      rw [run_other hw, hx.other w hw]
    · intro me hme
      rw [run_at h.nodup hme]
      refine (hx.frame me hme).trans (hpo me hme).1 ?_ ?_
      · intro q _ hq; exact Or.inl (hq.mono (h.nout_le hme))
      · rintro q _ (hq | ⟨_, hq⟩) <;> exact Or.inl (hq.mono (h.nout_le hme))
    · intro i hi' j hj v hv
      refine assemble h (st1 := st) (S := I) ?_ hx ?_ hi' hj hv
      · intro i _ j _ v _
        unfold TransP.inOff
        rw [htin]; rfl
      · intro me hme i hi' yl hyl v hv
        rw [run_at h.nodup hme]
        exact (hpo me hme).2 i hi' yl hyl v hv
  · rw [if_neg hA]
    have hnd : fl.nd = false := by
      rcases hnd with h1 | h1
      · exact h1
      · exact absurd (by simp [h1]) hA
    have hfar0 : ∀ me < p.comm.length, Far (p.I (p.comm.at me)) (p.O (p.comm.at me)) (p.space (p.comm.at me)) := fun me hme => far0 h hi hme
    have hne0 : ∀ me < p.comm.length, p.I (p.comm.at me) ≠ p.O (p.comm.at me) := fun me hme e => hi ((eq_iff_inpl h hme).1 e)
    refine good_needLoc (fun f hf => by simp at hf) ?_ fun cld1 hc1 => ?_
    · intro me hme x hx
      obtain rfl := Option.some.inj hx
      split
      · exact kosher_rdft0 (line_copy _) fun _ => (hfar0 me hme).mono (h.nin_le hme)
      · exact pre_kosher h fun _ => (hfar0 me hme).mono (h.nin_le hme)
    rw [nd_noSlow] at hc1
    refine mkplansPost_good h.blk.1 h.vn (fun f hf => by simp at hf) (fun me hme _ => (hfar0 me hme).mono (h.nout_le hme)) fun post hpost f hf => ?_
    obtain rfl := Option.some.inj hf
    intro I O st hc
    have hfar : ∀ me < p.comm.length, Far (I (p.comm.at me)) (O (p.comm.at me)) (p.space (p.comm.at me)) := fun me hme => far_of h hc hi hme
    -- the first copy
    have hpre : ∀ me < p.comm.length, Frame (st (p.comm.at me)) ((cld1 me).rdftApply (I (p.comm.at me)) (O (p.comm.at me)) (st (p.comm.at me)))
        (PW fl.nd (I (p.comm.at me)) (O (p.comm.at me)) (p.b me * p.ny * p.vn)) ∧
        ∀ i < p.nx, i / p.block = me → ∀ j < p.ny, ∀ v < p.vn,
          ((cld1 me).rdftApply (I (p.comm.at me)) (O (p.comm.at me)) (st (p.comm.at me))).mem (O (p.comm.at me) + (colOff p.nx p.vn p.block i j v : ℤ)) =
            (st (p.comm.at me)).mem (I (p.comm.at me) + (p.inOff i j v : ℤ)) := by
      intro me hme
      have hc1 := hc1 me hme _ rfl
      cases htin : p.flags.transposedIn with
      | true =>
        rw [htin, if_pos rfl] at hc1
        obtain ⟨f1, g1⟩ := copy_ok' (line_copy _) hc1 (hc.blkI _ (at_mem hme)) (hc.blkO _ (at_mem hme)) (fun e => absurd e (hne0 me hme))
          (fun _ => (hfar me hme).mono (h.nin_le hme))
        refine ⟨f1, ?_⟩
        rintro i hi' rfl j hj v hv
        have := g1 _ (mem_pairs1 (d := ⟨p.b (i / p.block) * p.ny * p.vn, 1, 1⟩) (colOff_lt h hi' hj hv))
        simp only [mul_one] at this
        rw [this]
        unfold TransP.inOff
        rw [htin, if_pos rfl]
      | false =>
        rw [htin, if_neg (by decide)] at hc1
        exact pre_ok h htin hc1 (fun e => absurd e (hne0 me hme)) (fun _ => (hfar me hme).mono (h.nin_le hme)) (hc.blkI _ (at_mem hme)) (hc.blkO _ (at_mem hme))
    simp only
    generalize hst1 : p.comm.run (fun me => (cld1 me).rdftApply (I (p.comm.at me)) (O (p.comm.at me))) st = st1
    have est1 : ∀ me < p.comm.length, st1 (p.comm.at me) = (cld1 me).rdftApply (I (p.comm.at me)) (O (p.comm.at me)) (st (p.comm.at me)) :=
      fun me hme => by rw [← hst1, run_at h.nodup hme]
    have hx := exchangeAll_ok (p := p) h.nodup (S := O) (R := I) (fun me hme x hx y hy => (hfar me hme).symm x
      (lt_of_lt_of_le hx (h.nin_le hme)) y (lt_of_lt_of_le hy (h.nout_le hme))) st1
    have nx1 : ∀ me < p.comm.length, (st (p.comm.at me)).next ≤ (exchangeAll p O I st1 (p.comm.at me)).next := fun me hme => by
      have := (hpre me hme).1.next
      rw [← est1 me hme] at this
      exact this.trans (hx.frame me hme).next
    have hpo : ∀ me < p.comm.length, _ := fun me hme => post_ok (hpost me hme) h.blk.1 h.vn (P := I (p.comm.at me)) (Q := O (p.comm.at me))
      (fun _ => (hfar0 me hme).mono (h.nout_le hme)) (fun e => absurd e (hne0 me hme)) (fun _ => (hfar me hme).mono (h.nout_le hme)) (st := exchangeAll p O I st1 (p.comm.at me))
      (lt_of_lt_of_le (hc.blkI _ (at_mem hme)) (nx1 me hme)) (lt_of_lt_of_le (hc.blkO _ (at_mem hme)) (nx1 me hme))
    refine ⟨mframe ?_ ?_, ?_⟩
    · intro w hw
      rw [run_other hw, hx.other w hw, ← hst1, run_other hw]
    · intro me hme
      rw [run_at h.nodup hme]
      have f1 := (hpre me hme).1
      rw [← est1 me hme] at f1
      refine (f1.trans (hx.frame me hme) (W2 := PW fl.nd (I (p.comm.at me)) (O (p.comm.at me)) (p.space (p.comm.at me))) ?_ ?_).trans (hpo me hme).1 (fun _ _ h => h) ?_
      · intro q _ hq; exact hq.mono (h.nin_le hme)
      · intro q _ hq; exact Or.inr ⟨hnd, hq.mono (h.nout_le hme)⟩
      · intro q _ hq; exact hq.mono (h.nout_le hme)
    · intro i hi' j hj v hv
      refine assemble h (st1 := st1) (S := O) ?_ hx ?_ hi' hj hv
      · intro i hi' j hj v hv
        have hq := blockLt hi' h.blk.1 h.pes
        rw [est1 _ hq]
        exact (hpre _ hq).2 i hi' rfl j hj v hv
      · intro me hme i hi' yl hyl v hv
        rw [run_at h.nodup hme]
        exact (hpo me hme).2 i hi' yl hyl v hv

/-- run-time pointers that look equal to process 0 are equal everywhere -/
theorem same0 (h : p.Ok) {I O : ℕ → Ptr} {st : Dist} (hc : MCompat p.comm p.space p.inpl I O st) (e : I (p.comm.at 0) = O (p.comm.at 0)) :
    ∀ w ∈ p.comm, I w = O w := by
  by_cases hi : p.inpl
  · exact hc.same hi
  · exact absurd (by rw [e]) (hc.disj hi _ (at_mem h.len) 0 h.space0 0 h.space0)

/-- exchange and local transposition -/
theorem pairwise_tail (h : p.Ok) {junk : ℕ → List ℤ} (hj : ∀ w, (junk w).length = MpiExchange.nPes p.toProb) {nd : Bool} {I0 O0 S R O : ℕ → Ptr} {post : Post}
    (hpost : ∀ me < p.comm.length, PostOk p nd (I0 (p.comm.at me)) (O0 (p.comm.at me)) me post) {st st1 : Dist}
    (hs : S (p.comm.at 0) = R (p.comm.at 0) → ∀ w ∈ p.comm, S w = R w)
    (h0 : ∀ me < p.comm.length, I0 (p.comm.at me) ≠ O0 (p.comm.at me) → Far (I0 (p.comm.at me)) (O0 (p.comm.at me)) (p.nout me))
    (h1 : ∀ me < p.comm.length, I0 (p.comm.at me) = O0 (p.comm.at me) → R (p.comm.at me) = O (p.comm.at me))
    (h2 : ∀ me < p.comm.length, I0 (p.comm.at me) ≠ O0 (p.comm.at me) → Far (R (p.comm.at me)) (O (p.comm.at me)) (p.nout me))
    (bR : ∀ w ∈ p.comm, (R w).blk < (st w).next) (bO : ∀ w ∈ p.comm, (O w).blk < (st w).next)
    {I : ℕ → Ptr} (oth : ∀ w, w ∉ p.comm → st1 w = st w)
    (fr : ∀ me < p.comm.length, Frame (st (p.comm.at me)) (st1 (p.comm.at me)) (PW nd (I (p.comm.at me)) (O (p.comm.at me)) (p.space (p.comm.at me))))
    (hR : ∀ me < p.comm.length, R (p.comm.at me) = O (p.comm.at me) ∨ (nd = false ∧ R (p.comm.at me) = I (p.comm.at me)))
    (pre : ∀ i < p.nx, ∀ j < p.ny, ∀ v < p.vn, (st1 (p.comm.at (i / p.block))).mem (S (p.comm.at (i / p.block)) + (colOff p.nx p.vn p.block i j v : ℤ)) =
      (st (p.comm.at (i / p.block))).mem (I (p.comm.at (i / p.block)) + (p.inOff i j v : ℤ))) :
    let st' := p.comm.run (fun me => post.apply p (direct p (I0 (p.comm.at me)) (O0 (p.comm.at me))) me (R (p.comm.at me)) (O (p.comm.at me))) (transposeChunks p junk S R st1)
    MFrame p.comm p.space nd I O st st' ∧ ∀ i < p.nx, ∀ j < p.ny, ∀ v < p.vn,
      (st' (p.comm.at (j / p.tblock))).mem (O (p.comm.at (j / p.tblock)) + (p.outOff i j v : ℤ)) =
        (st (p.comm.at (i / p.block))).mem (I (p.comm.at (i / p.block)) + (p.inOff i j v : ℤ)) := by
  intro st'
  have hx := chunks_ok h hj hs st1
  have nx1 : ∀ me < p.comm.length, (st (p.comm.at me)).next ≤ (transposeChunks p junk S R st1 (p.comm.at me)).next := fun me hme =>
    (fr me hme).next.trans (hx.frame me hme).next
  have hpo : ∀ me < p.comm.length, _ := fun me hme => post_ok (hpost me hme) h.blk.1 h.vn (P := R (p.comm.at me)) (Q := O (p.comm.at me))
    (h0 me hme) (h1 me hme) (h2 me hme) (st := transposeChunks p junk S R st1 (p.comm.at me))
    (lt_of_lt_of_le (bR _ (at_mem hme)) (nx1 me hme)) (lt_of_lt_of_le (bO _ (at_mem hme)) (nx1 me hme))
  have hW : ∀ me < p.comm.length, ∀ q, In (R (p.comm.at me)) (p.nout me) q → PW nd (I (p.comm.at me)) (O (p.comm.at me)) (p.space (p.comm.at me)) q := by
    intro me hme q hq
    rcases hR me hme with e | ⟨hn, e⟩
    · rw [e] at hq; exact Or.inl (hq.mono (h.nout_le hme))
    · rw [e] at hq; exact Or.inr ⟨hn, hq.mono (h.nout_le hme)⟩
  refine ⟨mframe ?_ ?_, ?_⟩
  · intro w hw
    show p.comm.run _ _ w = _
    rw [run_other hw, hx.other w hw, oth w hw]
  · intro me hme
    show Frame _ (p.comm.run _ _ _) _
    rw [run_at h.nodup hme]
    refine ((fr me hme).trans (hx.frame me hme) (W2 := PW nd (I (p.comm.at me)) (O (p.comm.at me)) (p.space (p.comm.at me))) (fun _ _ h => h)
      (fun q _ hq => hW me hme q hq)).trans (hpo me hme).1 (fun _ _ h => h) ?_
    rintro q _ (hq | ⟨_, hq⟩)
    · exact Or.inl (hq.mono (h.nout_le hme))
    · exact hW me hme q hq
  · intro i hi' j hj v hv
    refine assemble h (st1 := st1) (S := S) pre hx ?_ hi' hj hv
    intro me hme i hi' yl hyl v hv
    show (p.comm.run _ _ _).mem _ = _
    rw [run_at h.nodup hme]
    exact (hpo me hme).2 i hi' yl hyl v hv

theorem pairwise_sound {junk : TransP → ℕ → List ℤ} (hj : ∀ p w, (junk p w).length = MpiExchange.nPes p.toProb) (preserve : Bool) :
    (transposePairwise junk preserve).Sound := by
  intro pr fl hk
  cases pr with
  | dft p => exact fun f hf => by simp at hf
  | rdft p => exact fun f hf => by simp at hf
  | transpose p =>
  have h : p.Ok := hk
  show (pairwiseMk (junk p) preserve p fl).Good fl _
  unfold pairwiseMk
  simp only
  by_cases ha : pairwiseApplicable preserve p fl = true
  swap
  · rw [if_pos (by simpa using ha)]
    exact fun f hf => by simp at hf
  rw [if_neg (by simp [ha])]
  clear ha
  have hnd : (preserve || fl.nd) = false → fl.nd = false := by cases preserve <;> simp
  generalize (preserve || fl.nd) = pre at hnd ⊢
  have hfar0 : ∀ me < p.comm.length, p.I (p.comm.at me) ≠ p.O (p.comm.at me) → Far (p.I (p.comm.at me)) (p.O (p.comm.at me)) (p.space (p.comm.at me)) :=
    fun me hme hne => far0 h (fun hi => hne ((eq_iff_inpl h hme).2 hi)) hme
  have hI0 : ∀ me < p.comm.length, (if pre = true then p.O else p.I) (p.comm.at me) ≠ p.O (p.comm.at me) →
      Far ((if pre = true then p.O else p.I) (p.comm.at me)) (p.O (p.comm.at me)) (p.nout me) := by
    intro me hme
    cases pre with
    | true => exact fun hne => absurd rfl hne
    | false => exact fun hne => (hfar0 me hme hne).mono (h.nout_le hme)
  cases hti : p.flags.transposedIn with
  | false =>
    rw [if_pos (by rfl)]
    refine good_needLoc (fun f hf => by simp at hf) ?_ fun cld1 hc1 => ?_
    · intro me hme x hx
      obtain rfl := Option.some.inj hx
      exact pre_kosher h fun hne => (hfar0 me hme hne).mono (h.nin_le hme)
    rw [nd_noSlow] at hc1
    refine mkplansPost_good h.blk.1 h.vn (fun f hf => by simp at hf) hI0 fun post hpost f hf => ?_
    obtain rfl := Option.some.inj hf
    intro I O st hc
    have hs : ∀ me < p.comm.length, p.I (p.comm.at me) = p.O (p.comm.at me) → I (p.comm.at me) = O (p.comm.at me) :=
      fun me hme e => hc.same ((eq_iff_inpl h hme).1 e) _ (at_mem hme)
    have hfar : ∀ me < p.comm.length, p.I (p.comm.at me) ≠ p.O (p.comm.at me) → Far (I (p.comm.at me)) (O (p.comm.at me)) (p.space (p.comm.at me)) :=
      fun me hme hne => far_of h hc (fun hi => hne ((eq_iff_inpl h hme).2 hi)) hme
    have hpre : ∀ me < p.comm.length, _ := fun me hme => pre_ok h hti (hc1 me hme _ rfl) (hs me hme) (fun hne => (hfar me hme hne).mono (h.nin_le hme))
      (hc.blkI _ (at_mem hme)) (hc.blkO _ (at_mem hme))
    simp only
    generalize hst1 : p.comm.run (fun me => (cld1 me).rdftApply (I (p.comm.at me)) (O (p.comm.at me))) st = st1
    have est1 : ∀ me < p.comm.length, st1 (p.comm.at me) = (cld1 me).rdftApply (I (p.comm.at me)) (O (p.comm.at me)) (st (p.comm.at me)) :=
      fun me hme => by rw [← hst1, run_at h.nodup hme]
    refine pairwise_tail h (hj p) hpost (S := O) (R := if pre = true then O else I) (O := O) (I := I) ?_ hI0 ?_ ?_ ?_ hc.blkO ?_ ?_ ?_ ?_
    · cases pre with
      | true => exact fun _ _ _ => rfl
      | false => exact fun e w hw => (same0 h hc e.symm w hw).symm
    · cases pre with
      | true => exact fun _ _ _ => rfl
      | false => exact hs
    · cases pre with
      | true => exact fun _ _ hne => absurd rfl hne
      | false => exact fun me hme hne => (hfar me hme hne).mono (h.nout_le hme)
    · cases pre with
      | true => exact hc.blkO
      | false => exact hc.blkI
    · intro w hw
      rw [← hst1, run_other hw]
    · intro me hme
      rw [est1 me hme]
      exact (hpre me hme).1.mono fun q _ hq => hq.mono (h.nin_le hme)
    · cases pre with
      | true => exact fun _ _ => Or.inl rfl
      | false => exact fun _ _ => Or.inr ⟨hnd rfl, rfl⟩
    · intro i hi' j hj' v hv
      have hq := blockLt hi' h.blk.1 h.pes
      rw [est1 _ hq]
      exact (hpre _ hq).2 i hi' rfl j hj' v hv
  | true =>
    rw [if_neg (by decide)]
    refine mkplansPost_good h.blk.1 h.vn (fun f hf => by simp at hf) hI0 fun post hpost f hf => ?_
    obtain rfl := Option.some.inj hf
    intro I O st hc
    have hs : ∀ me < p.comm.length, p.I (p.comm.at me) = p.O (p.comm.at me) → I (p.comm.at me) = O (p.comm.at me) :=
      fun me hme e => hc.same ((eq_iff_inpl h hme).1 e) _ (at_mem hme)
    have hfar : ∀ me < p.comm.length, p.I (p.comm.at me) ≠ p.O (p.comm.at me) → Far (I (p.comm.at me)) (O (p.comm.at me)) (p.space (p.comm.at me)) :=
      fun me hme hne => far_of h hc (fun hi => hne ((eq_iff_inpl h hme).2 hi)) hme
    have hin : ∀ i < p.nx, ∀ j < p.ny, ∀ v < p.vn, (st (p.comm.at (i / p.block))).mem (I (p.comm.at (i / p.block)) + (colOff p.nx p.vn p.block i j v : ℤ)) =
      (st (p.comm.at (i / p.block))).mem (I (p.comm.at (i / p.block)) + (p.inOff i j v : ℤ)) := by
      intro i _ j _ v _
      unfold TransP.inOff
      rw [hti]; rfl
    cases pre with
    | true =>
      simp only [if_true] at hI0 hpost ⊢
      exact pairwise_tail h (hj p) hpost (S := I) (R := O) (O := O) (I := I) (same0 h hc) hI0 (fun _ _ _ => rfl) (fun _ _ hne => absurd rfl hne)
        hc.blkO hc.blkO (fun _ _ => rfl) (fun _ _ => Frame.refl _ _) (fun _ _ => Or.inl rfl) hin
    | false =>
      simp only [Bool.false_eq_true, if_false] at hI0 hpost ⊢
      exact pairwise_tail h (hj p) hpost (S := I) (R := I) (O := O) (I := I) (fun _ _ _ => rfl) hI0 hs (fun me hme hne => (hfar me hme hne).mono (h.nout_le hme))
        hc.blkI hc.blkO (fun _ _ => rfl) (fun _ _ => Frame.refl _ _) (fun _ _ => Or.inr ⟨hnd rfl, rfl⟩) hin

end FFTW.Mpi
