import Verif.Proofs.MpiDft3

/-! `mpi/dft-rank-geq2-transposed.c` -/

namespace FFTW.Mpi
open Tensor Spec RdftS
variable [CLib]
variable {p : MDftP} {fl : Flags}

theorem last_inpl (h : p.Ok fl) (pre : Bool) (hl : 0 < p.comm.length) : (sel pre p.I p.O (p.comm.at 0) = p.O (p.comm.at 0)) = (pre = true ∨ p.inpl) :=
  propext ((h.apart.last pre).iff (at_mem hl))

theorem slow_ok (h : p.Ok fl) (hn : notSlow p fl = true) (h1 : p.oneProcess) : fl.l &&& NO_SLOW = 0 := by
  unfold notSlow at hn
  rw [Bool.or_eq_true, decide_eq_true_eq] at hn
  rcases hn with hn | hn
  · exact hn
  · exfalso
    obtain ⟨h2, h3⟩ := h1
    have all : ∀ k, isLocalAfter 0 p.sz k = true := by
      intro k
      unfold isLocalAfter
      rw [List.drop_zero, List.all_eq_true]
      intro e he
      have hp := (h.pos e he).1
      have : numBlocks e.n (e.b k) = 1 := by
        cases k with
        | IB => show numBlocks e.n e.ib = 1; rw [(h3 e he).1]; exact numBlocks_self (by omega)
        | OB => show numBlocks e.n e.ob = 1; rw [(h3 e he).2]; exact numBlocks_self (by omega)
      rw [this]; rfl
    unfold dftSerialApplicable at hn
    rw [all, all, h2] at hn
    simp at hn

theorem block_zero_le {n b : ℕ} (h : n ≤ b) : block n b 0 = n := by rw [block_eq]; omega

theorem Rows.len {d0 : DDim} {l : List DDim} (h : Rows fl p d0 l) : 0 < p.comm.length := by
  rw [Nat.pos_iff_ne_zero]
  intro h0
  have := h.pes
  rw [h0, Nat.zero_mul] at this
  have := h.d0.1
  omega

theorem geq2Transposed_sound (preserve : Bool) : (dftRankGeq2Transposed preserve).Sound := by
  intro pr fl hk
  cases pr with
  | transpose p => exact fun f hf => by simp at hf
  | rdft p => exact fun f hf => by simp at hf
  | dft p =>
  have h : p.Ok fl := hk
  show (geq2TransposedMk preserve p fl).Good fl _
  unfold geq2TransposedMk
  have none_ : ∀ f, (none : Option MPlan) = some f → MSound fl.nd (.dft p) f := fun f hf => by simp at hf
  rcases hsz : p.sz with _ | ⟨d0, _ | ⟨d1, rest⟩⟩
  · exact none_
  · exact none_
  simp only
  by_cases ha : (decide (p.flags = { transposedOut := true }) && preserveOk preserve p fl && isLocalAfter 1 (d0 :: d1 :: rest) .IB && isLocalAfter 2 (d0 :: d1 :: rest) .OB &&
        decide (numBlocks d0.n d0.ob = 1) && notSlow p fl) = true
  swap
  · rw [if_pos (by rw [Bool.not_eq_true] at ha; rw [ha]; rfl)]
    exact none_
  rw [if_neg (by simp [ha])]
  simp only [Bool.and_eq_true, decide_eq_true_eq] at ha
  obtain ⟨⟨⟨⟨⟨hfl, hpre⟩, hi⟩, ho⟩, hob0⟩, -⟩ := ha
  have sub1 : ∀ e ∈ d1 :: rest, e ∈ p.sz := fun e he => by rw [hsz]; exact List.mem_cons_of_mem _ he
  have sub2 : ∀ e ∈ rest, e ∈ p.sz := fun e he => sub1 e (List.mem_cons_of_mem _ he)
  have R : Rows fl p d0 (d1 :: rest) := ⟨h, six_long hsz, hsz, (local_of h sub1).1 (by simpa [isLocalAfter] using hi)⟩
  have lo := (local_of h sub2).2 (by simpa [isLocalAfter] using ho)
  obtain ⟨n0, ib0, ib0', ob0, ob0'⟩ := R.d0
  have eob0 : d0.ob = d0.n := by
    have := le_numBlocks ob0 (le_of_eq hob0)
    omega
  obtain ⟨n1, ib1, ib1', ob1, ob1'⟩ := h.pos d1 (sub1 d1 (by simp))
  set nr := rest.map DDim.n with hnr
  have posr : ∀ n ∈ nr, 0 < n := npos h sub2
  have prodr : 0 < nr.prod := prod_pos posr
  have eoutD : p.outD = (d1.n, d1.ob) :: whole (d0.n :: nr) := by
    unfold MDftP.outD
    rw [hfl, hsz]
    show (d1.n, d1.ob) :: (d0.n, d0.ob) :: rest.map (fun d => (d.n, d.ob)) = _
    rw [whole_out lo, eob0]
    rfl
  have pesO : d1.n ≤ p.comm.length * d1.ob := by
    have := h.pesOut
    rw [hsz, List.map_cons, List.map_cons, List.prod_cons, List.prod_cons, nb_map posr DDim.ob lo, hob0, Nat.one_mul, Nat.mul_one] at this
    exact le_numBlocks ob1 this
  have roomO : ∀ r < p.comm.length, block d1.n d1.ob r * (d0.n * (nr.prod * p.vn)) * 2 ≤ p.space (p.comm.at r) := by
    intro r hr
    have := h.roomOut r hr
    have pos0 : ∀ n ∈ d0.n :: nr, 0 < n := by
      intro n hn
      rcases List.mem_cons.1 hn with rfl | hn
      · omega
      · exact posr n hn
    rw [outSize_none R.ns, eoutD, localSize_cons pos0, List.prod_cons] at this
    calc _ = block d1.n d1.ob r * (d0.n * nr.prod) * p.vn * 2 := by ring
      _ ≤ _ := this
  have roomI : ∀ r < p.comm.length, block d0.n d0.ib r * d1.n * (nr.prod * p.vn * 2) ≤ p.space (p.comm.at r) := by
    intro r hr
    have := R.room r hr
    rw [List.map_cons, List.prod_cons] at this
    calc _ = block d0.n d0.ib r * (d1.n * nr.prod * p.vn) * 2 := by ring
      _ ≤ _ := this
  set pre := (preserve || fl.nd) with epre
  have hnd : pre = false → fl.nd = false := fun e => by rw [epre] at e; simpa using (Bool.or_eq_false_iff.1 e).2
  have einp := last_inpl h pre R.len
  refine good_needLoc none_ ?_ fun cld1 hc1 => good_needM none_ ?_ fun cldt hct => good_needLoc none_ ?_ fun cld2 hc2 f hf' => ?_
  · exact rows_kosher R pre
  · refine mkTrans_ok h.nodup (by omega) (by omega) (by have := Nat.mul_pos prodr h.vnpos; omega) ib0 ob1 R.pes pesO roomI (fun r hr => ?_) ?_
    · have := roomO r hr
      calc _ = block d1.n d1.ob r * (d0.n * (nr.prod * p.vn)) * 2 := by ring
        _ ≤ _ := this
    · show MApart _ _ (sel pre p.I p.O (p.comm.at 0) = p.O (p.comm.at 0)) (sel pre p.I p.O) p.O
      rw [einp]
      exact h.apart.last pre
  · refine stage_kosher (comm := p.comm) (space := p.space) (a := fun _ => [(d0.n, nr.prod * p.vn)])
      (b := fun me => [(block d1.n d1.ob me, d0.n * (nr.prod * p.vn)), (nr.prod * p.vn, 1)]) (fun me _ => fits_cols _ _ _) (by simp; omega) roomO (h.apart.last true |>.first false)
  obtain rfl := Option.some.inj hf'
  rw [modify_default] at hc1 hct hc2
  intro I O st hcm
  obtain ⟨f1, g1⟩ := rows_stage R (pre := pre) (nd := fl.nd) hc1 hcm
  set st1 := p.comm.run (fun me => applyDft p.bwd (cld1 me) (I (p.comm.at me)) (sel pre I O (p.comm.at me))) st with est1
  have hcm1 : MCompat p.comm p.space (sel pre p.I p.O (p.comm.at 0) = p.O (p.comm.at 0)) (sel pre I O) O st1 := by
    rw [einp]
    exact (hcm.later fun w hw => (f1.frame w hw).next).last pre
  obtain ⟨f2, g2⟩ := tok_elt (bwd := p.bwd) hct hcm1
  set st2 := cldt (sel pre I O) O st1 with est2
  have hcm2 : MCompat p.comm p.space (true = true ∨ p.inpl) O O st2 :=
    ((hcm.later fun w hw => (f1.frame w hw).next).later fun w hw => (f2.frame w hw).next).last true
  obtain ⟨f3, g3⟩ := stage (bwd := p.bwd) (a := fun _ => [(d0.n, nr.prod * p.vn)])
      (b := fun me => [(block d1.n d1.ob me, d0.n * (nr.prod * p.vn)), (nr.prod * p.vn, 1)]) (N := fun me => block d1.n d1.ob me * (d0.n * (nr.prod * p.vn)))
      h.nodup (fun me _ => fits_cols _ _ _) roomO (h.apart.last true) hcm2 (nd := fl.nd) (c := cld2) (by
        intro me hme x hx
        refine hc2 me hme x ?_
        rw [← hx]
        simp only [dbl, List.map_cons, List.map_nil, eqDim, Nat.mul_assoc, Nat.one_mul]
        rfl)
  refine ⟨((f1.to (fun w => Or.inr rfl) (sel_Q hnd I O)).trans (f2.to (sel_P pre I O) fun w => Or.inl rfl)).trans (f3.to (fun w => Or.inl rfl) fun w => Or.inl rfl), ?_⟩
  intro k hk v hv
  rw [hsz] at hk ⊢
  cases hk with
  | @cons k0 _ ks _ hk0 hk =>
  cases hk with
  | @cons k1 _ ks _ hk1 hks =>
  have hr := blockLt hk1 ob1 pesO
  have hu := lin_lt (rm_lt hks) hv
  set u := rm nr ks * p.vn + v with eu
  have key := g3 (k1 / d1.ob) hr [k0] (index1 hk0) [k1 % d1.ob, u] (index2 (block_mod hk1 ob1) hu)
  have eo : p.outAt (k0 :: k1 :: ks) = (k1 / d1.ob, (k1 % d1.ob * d0.n + k0) * nr.prod + rm nr ks) := by
    rw [outAt_none R.ns, eoutD, hfl]
    show place _ (k1 :: k0 :: ks) = _
    rw [place_cons (.cons hk0 hks)]
    simp only [List.prod_cons, rm]
    congr 1
    ring
  rw [eo, ← elt_regroup, elt_eq]
  have el : ∀ i, (k1 % d1.ob * d0.n + i) * (nr.prod * p.vn) + (rm nr ks * p.vn + v) = lin [(d0.n, nr.prod * p.vn)] [i] + lin [(block d1.n d1.ob (k1 / d1.ob), d0.n * (nr.prod * p.vn)), (nr.prod * p.vn, 1)] [k1 % d1.ob, u] := by
    intro i
    simp only [lin, eu]
    ring
  rw [el]
  refine key.trans ?_
  show ∑ i ∈ Finset.range d0.n, _ = ∑ i ∈ Finset.range d0.n, _
  refine Finset.sum_congr rfl fun i hi => ?_
  congr 1
  have hi := Finset.mem_range.1 hi
  show cval _ _ _ (lin [(d0.n, nr.prod * p.vn)] [i] + _) = _
  rw [← el, ← elt_eq, g2 i hi k1 hk1 u hu, elt_regroup]
  have := g1 i hi (k1 :: ks) (.cons hk1 hks) v hv
  rw [← this]
  simp only [List.map_cons, List.prod_cons, rm]
  congr 2
  ring

end FFTW.Mpi
