import Verif.Proofs.MpiRdft1

/-! `mpi/rdft-serial.c`, `mpi/rdft-rank-geq2-transposed.c`, `mpi/rdft-rank-geq2.c`, `mpi/rdft-rank1-bigvec.c` -/

namespace FFTW.Mpi.Rdft
open Tensor Spec RdftS
variable [CLib]
variable {p : MRdftP} {fl : Flags}

/-- local dimensions -/
theorem local_of (h : p.Ok fl) {l : List DDim} (hl : ∀ e ∈ l, e ∈ p.sz) :
    ((l.all fun d => !decide (numBlocks d.n (d.b .IB) > 1)) = true → ∀ e ∈ l, e.ib = e.n) ∧
    ((l.all fun d => !decide (numBlocks d.n (d.b .OB) > 1)) = true → ∀ e ∈ l, e.ob = e.n) := by
  constructor
  · intro ha e he
    have h1 := List.all_eq_true.1 ha e he
    obtain ⟨_, h3, h4, _⟩ := h.pos e (hl e he)
    have h2 : numBlocks e.n e.ib ≤ 1 := by
      by_contra hc
      have : numBlocks e.n (e.b .IB) > 1 := by show numBlocks e.n e.ib > 1; omega
      simp [this] at h1
    have := le_numBlocks h3 h2
    omega
  · intro ha e he
    have h1 := List.all_eq_true.1 ha e he
    obtain ⟨_, _, _, h3, h4⟩ := h.pos e (hl e he)
    have h2 : numBlocks e.n e.ob ≤ 1 := by
      by_contra hc
      have : numBlocks e.n (e.b .OB) > 1 := by show numBlocks e.n e.ob > 1; omega
      simp [this] at h1
    have := le_numBlocks h3 h2
    omega

theorem npos (h : p.Ok fl) {l : List DDim} (hl : ∀ e ∈ l, e ∈ p.sz) : ∀ n ∈ l.map DDim.n, 0 < n := by
  intro n hn
  obtain ⟨e, he, rfl⟩ := List.mem_map.1 hn
  exact (h.pos e (hl e he)).1

/-- a problem whose input is distributed along the first dimension only -/
structure Rows (fl : Flags) (p : MRdftP) (d0 : DDim) (l : List DDim) (k0 : RKind) (kinds : List RKind) : Prop where
  ok : p.Ok fl
  sz : p.sz = d0 :: l
  kd : p.kind = k0 :: kinds
  loc : ∀ e ∈ l, e.ib = e.n

variable {d0 : DDim} {l : List DDim} {k0 : RKind} {kinds : List RKind}

theorem Rows.klen (h : Rows fl p d0 l k0 kinds) : kinds.length = l.length := by
  have := h.ok.kinds
  rw [h.sz, h.kd] at this
  simpa using this
theorem Rows.klen' (h : Rows fl p d0 l k0 kinds) : kinds.length = (l.map DDim.n).length := by rw [List.length_map]; exact h.klen
theorem Rows.sub (h : Rows fl p d0 l k0 kinds) : ∀ e ∈ l, e ∈ p.sz := fun e he => by rw [h.sz]; simp [he]
theorem Rows.dim0 (h : Rows fl p d0 l k0 kinds) : 0 < d0.n ∧ 0 < d0.ib ∧ d0.ib ≤ d0.n ∧ 0 < d0.ob ∧ d0.ob ≤ d0.n := h.ok.pos d0 (by rw [h.sz]; simp)
theorem Rows.inD (h : Rows fl p d0 l k0 kinds) : p.inD = (d0.n, d0.ib) :: whole (l.map DDim.n) := by
  unfold MRdftP.inD
  rw [h.sz, List.map_cons, whole_in h.loc]
theorem Rows.pes (h : Rows fl p d0 l k0 kinds) : d0.n ≤ p.comm.length * d0.ib := by
  have := h.ok.pes
  rw [h.sz, List.map_cons, List.prod_cons, nb_map (npos h.ok h.sub) DDim.ib h.loc, Nat.mul_one] at this
  exact le_numBlocks h.dim0.2.1 this
theorem Rows.room (h : Rows fl p d0 l k0 kinds) : ∀ r < p.comm.length, block d0.n d0.ib r * ((l.map DDim.n).prod * p.vn) ≤ p.space (p.comm.at r) := by
  intro r hr
  have := h.ok.roomIn r hr
  rw [h.inD, localSize_cons (npos h.ok h.sub)] at this
  rwa [Nat.mul_assoc (block _ _ _)] at this
theorem Rows.inAt (h : Rows fl p d0 l k0 kinds) {i : ℕ} {ks : List ℕ} (hk : Index (l.map DDim.n) ks) :
    p.inAt (i :: ks) = (i / d0.ib, i % d0.ib * (l.map DDim.n).prod + rm (l.map DDim.n) ks) := by
  unfold MRdftP.inAt
  rw [h.inD, place_cons hk]
theorem Rows.len (h : Rows fl p d0 l k0 kinds) : 0 < p.comm.length := by
  rw [Nat.pos_iff_ne_zero]
  intro h0
  have := h.pes
  rw [h0, Nat.zero_mul] at this
  have := h.dim0.1
  omega

theorem rowMajor_sgl (s : ℕ) (ns : List ℕ) : rowMajor s ns = sgl (rowsL s ns) := by
  induction ns with
  | nil => rfl
  | cons n ns ih =>
    simp only [rowMajor, rowsL, sgl, List.map_cons] at ih ⊢
    rw [ih]

/-- sizes and strides of the vector of rows -/
def rowV (p : MRdftP) (d0 : DDim) (l : List DDim) (me : ℕ) : List (ℕ × ℕ) := [(block d0.n d0.ib me, (l.map DDim.n).prod * p.vn), (p.vn, 1)]

theorem restSz_eq (h : Rows fl p d0 l k0 kinds) : restSz p = sgl (rowsL p.vn (l.map DDim.n)) := by
  unfold restSz
  rw [h.sz, List.tail_cons, rowMajor_sgl]
theorem rowVec_eq (h : Rows fl p d0 l k0 kinds) (me : ℕ) : rowVec p d0 me = sgl (rowV p d0 l me) := by
  unfold rowVec rowV sgl
  rw [h.sz, List.tail_cons]
  rfl

theorem rowsL_len (s : ℕ) (ns : List ℕ) : (rowsL s ns).length = ns.length := by
  rw [← List.length_map (f := Prod.fst), rowsL_fst]

theorem rowsL_pos {s : ℕ} {ns : List ℕ} (h : ∀ n ∈ ns, 0 < n) : ∀ e ∈ rowsL s ns, 0 < e.1 := by
  intro e he
  have : e.1 ∈ (rowsL s ns).map Prod.fst := List.mem_map_of_mem he
  rw [rowsL_fst] at this
  exact h _ this

theorem rows_kosher (h : Rows fl p d0 l k0 kinds) (pre : Bool) :
    ∀ me < p.comm.length, ∀ x, some (rdftPr (restSz p) kinds (rowVec p d0 me) (p.I (p.comm.at me)) (sel pre p.I p.O (p.comm.at me))) = some x → Kosher x := by
  intro me hme x hx
  rw [restSz_eq h, rowVec_eq h] at hx
  exact stage_kosher (a := fun _ => rowsL p.vn (l.map DDim.n)) (b := fun me => rowV p d0 l me) (kd := fun _ => kinds) (fun _ _ => by rw [rowsL_len]; exact h.klen')
    (fun me _ => fits_rows p.vn (block d0.n d0.ib me) (l.map DDim.n)) (fun _ _ => rowsL_pos (npos h.ok h.sub)) h.room (h.ok.apart.first pre) me hme x hx

/-- the local dimensions are transformed -/
theorem rows_stage (h : Rows fl p d0 l k0 kinds) {pre nd : Bool} {c : ℕ → Plan}
    (hs : ∀ me < p.comm.length, ∀ x, some (rdftPr (restSz p) kinds (rowVec p d0 me) (p.I (p.comm.at me)) (sel pre p.I p.O (p.comm.at me))) = some x → FFTW.Sound nd x (c me))
    {I O : ℕ → Ptr} {st : Dist} (hc : MCompat p.comm p.space p.inpl I O st) :
    let st1 := p.comm.run (fun me => (c me).rdftApply (I (p.comm.at me)) (sel pre I O (p.comm.at me))) st
    MFrame p.comm p.space nd I (sel pre I O) st st1 ∧ ∀ i < d0.n, ∀ ks, Index (l.map DDim.n) ks → ∀ v < p.vn,
      relt p.vn p.comm (sel pre I O) st1 (i / d0.ib, i % d0.ib * (l.map DDim.n).prod + rm (l.map DDim.n) ks) v =
        r2rSum (l.map DDim.n) kinds ks fun js => relt p.vn p.comm I st (p.inAt (i :: js)) v := by
  intro st1
  obtain ⟨g1, g2⟩ := stage (a := fun _ => rowsL p.vn (l.map DDim.n)) (b := fun me => rowV p d0 l me) (kd := fun _ => kinds) h.ok.nodup (fun _ _ => by rw [rowsL_len]; exact h.klen')
    (fun me _ => fits_rows p.vn (block d0.n d0.ib me) (l.map DDim.n)) (fun _ _ => rowsL_pos (npos h.ok h.sub)) h.room
    (h.ok.apart.first pre) (hc.first pre) (c := c) (nd := nd) (by
      intro me hme x hx
      rw [← restSz_eq h, ← rowVec_eq h] at hx
      exact hs me hme x hx)
  refine ⟨g1, fun i hi ks hks v hv => ?_⟩
  have hr := blockLt hi h.dim0.2.1 h.pes
  have := g2 (i / d0.ib) hr ks (by rw [rowsL_fst]; exact hks) [i % d0.ib, v] (index2 (block_mod hi h.dim0.2.1) hv)
  simp only [rowsL_fst] at this
  have el : ∀ js, Index (l.map DDim.n) js → lin (rowsL p.vn (l.map DDim.n)) js + lin (rowV p d0 l (i / d0.ib)) [i % d0.ib, v] =
      (i % d0.ib * (l.map DDim.n).prod + rm (l.map DDim.n) js) * p.vn + v := by
    intro js hjs
    rw [lin_rows _ _ _ hjs]
    simp only [rowV, lin]
    ring
  rw [el ks hks] at this
  rw [relt_eq]
  refine this.trans (r2rSum_congr hks (fun js hjs => ?_) h.klen')
  rw [el js hjs, h.inAt hjs, relt_eq]

/-- mpi/rdft-serial.c -/
theorem serial_sound : rdftSerial.Sound := by
  intro pr fl hk
  cases pr with
  | transpose p => exact fun f hf => by simp at hf
  | dft p => exact fun f hf => by simp at hf
  | rdft p =>
  have h : p.Ok fl := hk
  show (serialMk p fl).Good fl _
  unfold serialMk
  by_cases ha : rdftSerialApplicable p = true
  swap
  · rw [if_pos (by simpa using ha)]
    exact fun f hf => by simp at hf
  rw [if_neg (by simp [ha])]
  have hv0 := h.vnpos
  unfold rdftSerialApplicable at ha
  simp only [Bool.and_eq_true, decide_eq_true_eq, Bool.or_eq_true] at ha
  obtain ⟨hfl, hloc⟩ := ha
  obtain ⟨hi, ho⟩ : isLocalAfter 0 p.sz .IB = true ∧ isLocalAfter 0 p.sz .OB = true := by
    rcases hloc with h1 | h1
    · exact h1
    · omega
  have lin_ := (local_of h (l := p.sz) fun e he => he).1 (by simpa [isLocalAfter] using hi)
  have lout := (local_of h (l := p.sz) fun e he => he).2 (by simpa [isLocalAfter] using ho)
  have einD : p.inD = whole (p.sz.map DDim.n) := whole_in lin_
  have eoutD : p.outD = whole (p.sz.map DDim.n) := by
    unfold MRdftP.outD
    rw [hfl]; exact whole_out lout
  have hlen : 0 < p.comm.length := by
    have := h.pes
    rw [nb_map (npos h fun e he => he) DDim.ib lin_] at this
    omega
  have hk' : p.kind.length = (p.sz.map DDim.n).length := by rw [List.length_map]; exact h.kinds
  simp only
  have hpr : ∀ me, (if me = 0 ∧ p.vn > 0 then rdftPr (rowMajor p.vn (p.sz.map DDim.n)) p.kind [eqDim p.vn 1] (p.I (p.comm.at me)) (p.O (p.comm.at me))
      else rdftPr [] [] [eqDim 0 0] (p.I (p.comm.at me)) (p.O (p.comm.at me))) =
      rdftPr (sgl (if me = 0 then rowsL p.vn (p.sz.map DDim.n) else [])) (if me = 0 then p.kind else []) (sgl (if me = 0 then [(p.vn, 1)] else [(0, 0)])) (p.I (p.comm.at me)) (p.O (p.comm.at me)) := by
    intro me
    by_cases h0 : me = 0
    · rw [if_pos ⟨h0, hv0⟩, if_pos h0, if_pos h0, if_pos h0, rowMajor_sgl]; rfl
    · rw [if_neg (fun hc => h0 hc.1), if_neg h0, if_neg h0, if_neg h0]; rfl
  simp only [hpr]
  have hkl : ∀ me < p.comm.length, (if me = 0 then p.kind else []).length = (if me = 0 then rowsL p.vn (p.sz.map DDim.n) else []).length := by
    intro me _
    by_cases h0 : me = 0
    · rw [if_pos h0, if_pos h0, rowsL_len]; exact hk'
    · rw [if_neg h0, if_neg h0]; rfl
  have hf : ∀ me < p.comm.length, Fits (zst ((if me = 0 then rowsL p.vn (p.sz.map DDim.n) else []) ++ (if me = 0 then [(p.vn, 1)] else [(0, 0)])))
      (if me = 0 then (p.sz.map DDim.n).prod * p.vn else 0) := by
    intro me _
    by_cases h0 : me = 0
    · rw [if_pos h0, if_pos h0, if_pos h0]; exact fits_whole _ _
    · rw [if_neg h0, if_neg h0, if_neg h0]
      exact ⟨by simp [zst, offs], by simp [zst, offs]⟩
  have hr : ∀ me < p.comm.length, (if me = 0 then (p.sz.map DDim.n).prod * p.vn else 0) ≤ p.space (p.comm.at me) := by
    intro me hme
    by_cases h0 : me = 0
    · subst h0
      rw [if_pos rfl]
      have := h.roomIn 0 hlen
      rwa [einD, localSize_whole (npos h fun e he => he)] at this
    · rw [if_neg h0]; omega
  have hpos : ∀ me < p.comm.length, ∀ e ∈ (if me = 0 then rowsL p.vn (p.sz.map DDim.n) else []), 0 < e.1 := by
    intro me _ e he
    split at he
    · exact rowsL_pos (npos h fun e he => he) e he
    · simp at he
  refine good_needLoc (fun f hf => by simp at hf) ?_ fun cld hc f hf' => ?_
  · exact stage_kosher (comm := p.comm) (space := p.space) hkl hf hpos hr h.apart
  obtain rfl := Option.some.inj hf'
  rw [modify_default] at hc
  intro I O st hcm
  obtain ⟨g1, g2⟩ := stage h.nodup hkl hf hpos hr h.apart hcm hc
  refine ⟨g1, fun k hk v hv => ?_⟩
  have := g2 0 hlen k (by rw [if_pos rfl, rowsL_fst]; exact hk) [v] (by rw [if_pos rfl]; exact index1 hv)
  simp only [if_true, rowsL_fst] at this
  have el : ∀ js, Index (p.sz.map DDim.n) js → lin (rowsL p.vn (p.sz.map DDim.n)) js + lin [(p.vn, 1)] [v] = rm (p.sz.map DDim.n) js * p.vn + v := by
    intro js hjs
    rw [lin_rows _ _ _ hjs]
    simp [lin]
  have ho : p.outAt k = (0, rm (p.sz.map DDim.n) k) := by
    unfold MRdftP.outAt
    rw [eoutD, hfl]
    exact place_whole hk
  rw [ho, relt_eq, ← el k hk]
  refine this.trans (r2rSum_congr hk (fun js hjs => ?_) hk')
  have hi' : p.inAt js = (0, rm (p.sz.map DDim.n) js) := by
    unfold MRdftP.inAt
    rw [einD]
    exact place_whole hjs
  rw [el js hjs, hi', relt_eq]

theorem last_inpl (h : p.Ok fl) (pre : Bool) (hl : 0 < p.comm.length) : (sel pre p.I p.O (p.comm.at 0) = p.O (p.comm.at 0)) = (pre = true ∨ p.inpl) :=
  propext ((h.apart.last pre).iff (at_mem hl))

theorem slow_ok (h : p.Ok fl) (hn : notSlow p fl = true) (h1 : p.oneProcess) : fl.l &&& NO_SLOW = 0 := by
  unfold notSlow at hn
  rw [Bool.or_eq_true, decide_eq_true_eq] at hn
  rcases hn with hn | hn
  · exact hn
  · exfalso
    obtain ⟨h2, h3⟩ := h1
    have all : ∀ k, isLocalAfter 0 p.sz k = true := by
      intro k
      unfold isLocalAfter
      rw [List.drop_zero, List.all_eq_true]
      intro e he
      have hp := (h.pos e he).1
      have : numBlocks e.n (e.b k) = 1 := by
        cases k with
        | IB => show numBlocks e.n e.ib = 1; rw [(h3 e he).1]; exact numBlocks_self hp
        | OB => show numBlocks e.n e.ob = 1; rw [(h3 e he).2]; exact numBlocks_self hp
      rw [this]; rfl
    unfold rdftSerialApplicable at hn
    rw [all, all, h2] at hn
    simp at hn

theorem geq2Transposed_sound (preserve : Bool) : (rdftRankGeq2Transposed preserve).Sound := by
  intro pr fl hk
  cases pr with
  | transpose p => exact fun f hf => by simp at hf
  | dft p => exact fun f hf => by simp at hf
  | rdft p =>
  have h : p.Ok fl := hk
  show (geq2TransposedMk preserve p fl).Good fl _
  unfold geq2TransposedMk
  have none_ : ∀ f, (none : Option MPlan) = some f → MSound fl.nd (.rdft p) f := fun f hf => by simp at hf
  rcases hsz : p.sz with _ | ⟨d0, _ | ⟨d1, rest⟩⟩
  · exact none_
  · exact none_
  rcases hkd : p.kind with _ | ⟨k0, kinds⟩
  · exact none_
  simp only
  by_cases ha : (decide (p.flags = { transposedOut := true }) && preserveOk preserve p fl && isLocalAfter 1 (d0 :: d1 :: rest) .IB && isLocalAfter 2 (d0 :: d1 :: rest) .OB &&
        decide (numBlocks d0.n d0.ob = 1) && notSlow p fl) = true
  swap
  · rw [if_pos (by rw [Bool.not_eq_true] at ha; rw [ha]; rfl)]
    exact none_
  rw [if_neg (by simp [ha])]
  simp only [Bool.and_eq_true, decide_eq_true_eq] at ha
  obtain ⟨⟨⟨⟨⟨hfl, hpre⟩, hi⟩, ho⟩, hob0⟩, -⟩ := ha
  have sub1 : ∀ e ∈ d1 :: rest, e ∈ p.sz := fun e he => by rw [hsz]; exact List.mem_cons_of_mem _ he
  have sub2 : ∀ e ∈ rest, e ∈ p.sz := fun e he => sub1 e (List.mem_cons_of_mem _ he)
  have R : Rows fl p d0 (d1 :: rest) k0 kinds := ⟨h, hsz, hkd, (local_of h sub1).1 (by simpa [isLocalAfter] using hi)⟩
  have lo := (local_of h sub2).2 (by simpa [isLocalAfter] using ho)
  obtain ⟨n0, ib0, ib0', ob0, ob0'⟩ := R.dim0
  have eob0 : d0.ob = d0.n := by
    have := le_numBlocks ob0 (le_of_eq hob0)
    omega
  obtain ⟨n1, ib1, ib1', ob1, ob1'⟩ := h.pos d1 (sub1 d1 (by simp))
  set nr := rest.map DDim.n with hnr
  have posr : ∀ n ∈ nr, 0 < n := npos h sub2
  have prodr : 0 < nr.prod := prod_pos posr
  have eoutD : p.outD = (d1.n, d1.ob) :: whole (d0.n :: nr) := by
    unfold MRdftP.outD
    rw [hfl, hsz]
    show (d1.n, d1.ob) :: (d0.n, d0.ob) :: rest.map (fun d => (d.n, d.ob)) = _
    rw [whole_out lo, eob0]
    rfl
  have pesO : d1.n ≤ p.comm.length * d1.ob := by
    have := h.pesOut
    rw [hsz, List.map_cons, List.map_cons, List.prod_cons, List.prod_cons, nb_map posr DDim.ob lo, hob0, Nat.one_mul, Nat.mul_one] at this
    exact le_numBlocks ob1 this
  have roomO : ∀ r < p.comm.length, block d1.n d1.ob r * (d0.n * (nr.prod * p.vn)) ≤ p.space (p.comm.at r) := by
    intro r hr
    have := h.roomOut r hr
    have pos0 : ∀ n ∈ d0.n :: nr, 0 < n := by
      intro n hn
      rcases List.mem_cons.1 hn with rfl | hn
      · omega
      · exact posr n hn
    rw [eoutD, localSize_cons pos0, List.prod_cons] at this
    calc _ = block d1.n d1.ob r * (d0.n * nr.prod) * p.vn := by ring
      _ ≤ _ := this
  have roomI : ∀ r < p.comm.length, block d0.n d0.ib r * d1.n * (nr.prod * p.vn) ≤ p.space (p.comm.at r) := by
    intro r hr
    have := R.room r hr
    rw [List.map_cons, List.prod_cons] at this
    calc _ = block d0.n d0.ib r * (d1.n * nr.prod * p.vn) := by ring
      _ ≤ _ := this
  set pre := (preserve || fl.nd) with epre
  have hnd : pre = false → fl.nd = false := fun e => by rw [epre] at e; simpa using (Bool.or_eq_false_iff.1 e).2
  have einp := last_inpl h pre R.len
  have edims : ∀ me, rdftPr [eqDim d0.n (nr.prod * p.vn)] [k0] [eqDim (block d1.n d1.ob me) (d0.n * (nr.prod * p.vn)), eqDim (nr.prod * p.vn) 1] (p.O (p.comm.at me)) (p.O (p.comm.at me)) =
      rdftPr (sgl [(d0.n, nr.prod * p.vn)]) [k0] (sgl [(block d1.n d1.ob me, d0.n * (nr.prod * p.vn)), (nr.prod * p.vn, 1)]) (p.O (p.comm.at me)) (p.O (p.comm.at me)) := fun me => rfl
  simp only [edims]
  refine good_needLoc none_ ?_ fun cld1 hc1 => good_needM none_ ?_ fun cldt hct => good_needLoc none_ ?_ fun cld2 hc2 f hf' => ?_
  · exact rows_kosher R pre
  · refine mkTrans_ok h.nodup (by omega) (by omega) (Nat.mul_pos prodr h.vnpos) ib0 ob1 R.pes pesO roomI (fun r hr => ?_) ?_
    · have := roomO r hr
      calc _ = block d1.n d1.ob r * (d0.n * (nr.prod * p.vn)) := by ring
        _ ≤ _ := this
    · show MApart _ _ (sel pre p.I p.O (p.comm.at 0) = p.O (p.comm.at 0)) (sel pre p.I p.O) p.O
      rw [einp]
      exact h.apart.last pre
  · refine stage_kosher (comm := p.comm) (space := p.space) (a := fun _ => [(d0.n, nr.prod * p.vn)]) (kd := fun _ => [k0])
      (b := fun me => [(block d1.n d1.ob me, d0.n * (nr.prod * p.vn)), (nr.prod * p.vn, 1)]) (fun _ _ => rfl) (fun me _ => fits_cols _ _ _) (by simp; omega) roomO (h.apart.last true |>.first false)
  obtain rfl := Option.some.inj hf'
  rw [modify_default] at hc1 hct hc2
  intro I O st hcm
  obtain ⟨f1, g1⟩ := rows_stage R (pre := pre) (nd := fl.nd) hc1 hcm
  set st1 := p.comm.run (fun me => (cld1 me).rdftApply (I (p.comm.at me)) (sel pre I O (p.comm.at me))) st with est1
  have hcm1 : MCompat p.comm p.space (sel pre p.I p.O (p.comm.at 0) = p.O (p.comm.at 0)) (sel pre I O) O st1 := by
    rw [einp]
    exact (hcm.later fun w hw => (f1.frame w hw).next).last pre
  obtain ⟨f2, g2⟩ := tok_relt hct hcm1
  set st2 := cldt (sel pre I O) O st1 with est2
  have hcm2 : MCompat p.comm p.space (true = true ∨ p.inpl) O O st2 :=
    ((hcm.later fun w hw => (f1.frame w hw).next).later fun w hw => (f2.frame w hw).next).last true
  obtain ⟨f3, g3⟩ := stage (a := fun _ => [(d0.n, nr.prod * p.vn)]) (kd := fun _ => [k0])
      (b := fun me => [(block d1.n d1.ob me, d0.n * (nr.prod * p.vn)), (nr.prod * p.vn, 1)]) (N := fun me => block d1.n d1.ob me * (d0.n * (nr.prod * p.vn)))
      h.nodup (fun _ _ => rfl) (fun me _ => fits_cols _ _ _) (by simp; omega) roomO (h.apart.last true) hcm2 (nd := fl.nd) (c := cld2) hc2
  refine ⟨((f1.to (fun w => Or.inr rfl) (sel_Q hnd I O)).trans (f2.to (sel_P pre I O) fun w => Or.inl rfl)).trans (f3.to (fun w => Or.inl rfl) fun w => Or.inl rfl), ?_⟩
  intro k hk v hv
  rw [hsz] at hk ⊢
  rw [hkd]
  cases hk with
  | @cons k0 _ ks _ hk0 hk =>
  cases hk with
  | @cons k1 _ ks _ hk1 hks =>
  have hr := blockLt hk1 ob1 pesO
  have hu := lin_lt (rm_lt hks) hv
  set u := rm nr ks * p.vn + v with eu
  have key := g3 (k1 / d1.ob) hr [k0] (index1 hk0) [k1 % d1.ob, u] (index2 (block_mod hk1 ob1) hu)
  have eo : p.outAt (k0 :: k1 :: ks) = (k1 / d1.ob, (k1 % d1.ob * d0.n + k0) * nr.prod + rm nr ks) := by
    unfold MRdftP.outAt
    rw [eoutD, hfl]
    show place _ (k1 :: k0 :: ks) = _
    rw [place_cons (.cons hk0 hks)]
    simp only [List.prod_cons, rm]
    congr 1
    ring
  rw [eo, ← relt_regroup, relt_eq]
  have el : ∀ i, (k1 % d1.ob * d0.n + i) * (nr.prod * p.vn) + (rm nr ks * p.vn + v) = lin [(d0.n, nr.prod * p.vn)] [i] + lin [(block d1.n d1.ob (k1 / d1.ob), d0.n * (nr.prod * p.vn)), (nr.prod * p.vn, 1)] [k1 % d1.ob, u] := by
    intro i
    simp only [lin, eu]
    ring
  rw [el]
  refine key.trans ?_
  show ∑ i ∈ Finset.range d0.n, _ = ∑ i ∈ Finset.range d0.n, _
  refine Finset.sum_congr rfl fun i hi => ?_
  congr 1
  have hi := Finset.mem_range.1 hi
  show rval _ _ (lin [(d0.n, nr.prod * p.vn)] [i] + _) = _
  rw [← el, ← relt_eq, g2 i hi k1 hk1 u hu, relt_regroup]
  have := g1 i hi (k1 :: ks) (.cons hk1 hks) v hv
  rw [← this]
  simp only [List.map_cons, List.prod_cons, rm]
  congr 2
  ring

theorem mkRdft_single {d : DDim} (h : 0 < d.n ∧ 0 < d.ib ∧ d.ib ≤ d.n ∧ 0 < d.ob ∧ d.ob ≤ d.n) (vn : ℕ) (I O : ℕ → Ptr) (comm : Comm) (kind : List RKind) (flags : MFlags) (space : ℕ → ℕ) :
    mkRdft [d] vn I O comm kind flags space = { sz := [d], vn, I, O, comm, kind, flags, space } := by
  have : [d].map DDim.canonical = [d] := by
    obtain ⟨_, h1, h2, h3, h4⟩ := h
    show [d.canonical] = [d]
    unfold DDim.canonical
    rw [clip_self h1 h2, clip_self h3 h4]
  unfold mkRdft
  rw [this, if_neg (by simp)]

/-- the first dimension of a problem whose other dimensions are local -/
theorem vec_ok (R : Rows fl p d0 l k0 kinds) (lo : ∀ e ∈ l, e.ob = e.n) (hfl : p.flags = {}) (hsl : p.oneProcess → fl.l &&& NO_SLOW = 0) (pre : Bool) :
    ({ sz := [d0], vn := (l.map DDim.n).prod * p.vn, I := sel pre p.I p.O, O := p.O, comm := p.comm, kind := [k0], flags := { bigvecOnly := true }, space := p.space } : MRdftP).Ok fl where
  nodup := R.ok.nodup
  rnk := by simp
  kinds := rfl
  vnpos := Nat.mul_pos (prod_pos (npos R.ok R.sub)) R.ok.vnpos
  pos := by intro d hd; obtain rfl := List.mem_singleton.1 hd; exact R.dim0
  pes := by
    have := R.ok.pes
    rw [R.sz, List.map_cons, List.prod_cons, nb_map (npos R.ok R.sub) DDim.ib R.loc] at this
    simpa using this
  pesOut := by
    have := R.ok.pesOut
    rw [R.sz, List.map_cons, List.prod_cons, nb_map (npos R.ok R.sub) DDim.ob lo] at this
    simpa using this
  roomIn r hr := by
    have := R.room r hr
    show localSize ((d0.n, d0.ib) :: whole []) r * _ ≤ _
    rw [localSize_cons (by simp)]
    simpa using this
  roomOut r hr := by
    have := R.ok.roomOut r hr
    unfold MRdftP.outD at this
    rw [hfl, R.sz, List.map_cons, whole_out lo] at this
    show localSize ((d0.n, d0.ob) :: whole []) r * _ ≤ _
    rw [localSize_cons (by simp)]
    simp only [Bool.false_eq_true, if_false] at this
    rw [localSize_cons (npos R.ok R.sub), Nat.mul_assoc (block _ _ _)] at this
    simpa using this
  roomMid := by
    intro _ _ d l' e _ r hr
    obtain ⟨rfl, rfl⟩ := List.cons.inj e
    have := R.ok.roomMid hsl (by rw [hfl]) d0 l R.sz (fun e he => ⟨R.loc e he, lo e he⟩) r hr
    simpa using this
  apart := by
    have hl := R.len
    show MApart _ _ (sel pre p.I p.O (p.comm.at 0) = p.O (p.comm.at 0)) (sel pre p.I p.O) p.O
    rw [last_inpl R.ok pre hl]
    exact R.ok.apart.last pre

theorem geq2_sound (preserve : Bool) : (rdftRankGeq2 preserve).Sound := by
  intro pr fl hk
  cases pr with
  | transpose p => exact fun f hf => by simp at hf
  | dft p => exact fun f hf => by simp at hf
  | rdft p =>
  have h : p.Ok fl := hk
  show (geq2Mk preserve p fl).Good fl _
  unfold geq2Mk
  have none_ : ∀ f, (none : Option MPlan) = some f → MSound fl.nd (.rdft p) f := fun f hf => by simp at hf
  rcases hsz : p.sz with _ | ⟨d0, _ | ⟨d1, rest⟩⟩
  · exact none_
  · exact none_
  rcases hkd : p.kind with _ | ⟨k0, kinds⟩
  · exact none_
  simp only
  by_cases ha : (decide (p.flags = {}) && preserveOk preserve p fl && isLocalAfter 1 (d0 :: d1 :: rest) .IB && isLocalAfter 1 (d0 :: d1 :: rest) .OB && notSlow p fl) = true
  swap
  · rw [if_pos (by rw [Bool.not_eq_true] at ha; rw [ha]; rfl)]
    exact none_
  rw [if_neg (by simp [ha])]
  simp only [Bool.and_eq_true, decide_eq_true_eq] at ha
  obtain ⟨⟨⟨⟨hfl, hpre⟩, hi⟩, ho⟩, hsl⟩ := ha
  have sub1 : ∀ e ∈ d1 :: rest, e ∈ p.sz := fun e he => by rw [hsz]; exact List.mem_cons_of_mem _ he
  have R : Rows fl p d0 (d1 :: rest) k0 kinds := ⟨h, hsz, hkd, (local_of h sub1).1 (by simpa [isLocalAfter] using hi)⟩
  have lo := (local_of h sub1).2 (by simpa [isLocalAfter] using ho)
  set l := d1 :: rest with el
  set pre := (preserve || fl.nd) with epre
  have hnd : pre = false → fl.nd = false := fun e => by rw [epre] at e; simpa using (Bool.or_eq_false_iff.1 e).2
  have einp := last_inpl h pre R.len
  rw [mkRdft_single R.dim0]
  refine good_needLoc none_ (rows_kosher R pre) fun cld1 hc1 => good_needM none_ (by rw [modify_default]; exact vec_ok R lo hfl (slow_ok h hsl) pre) fun cld2 hc2 f hf' => ?_
  obtain rfl := Option.some.inj hf'
  rw [modify_default] at hc1 hc2
  intro I O st hcm
  obtain ⟨f1, g1⟩ := rows_stage R (pre := pre) (nd := fl.nd) hc1 hcm
  set st1 := p.comm.run (fun me => (cld1 me).rdftApply (I (p.comm.at me)) (sel pre I O (p.comm.at me))) st with est1
  have hcm1 : MCompat p.comm p.space (sel pre p.I p.O (p.comm.at 0) = p.O (p.comm.at 0)) (sel pre I O) O st1 := by
    rw [einp]
    exact (hcm.later fun w hw => (f1.frame w hw).next).last pre
  obtain ⟨f2, g2⟩ := hc2 (sel pre I O) O st1 hcm1
  refine ⟨(f1.to (fun w => Or.inr rfl) (sel_Q hnd I O)).trans (f2.to (sel_P pre I O) fun w => Or.inl rfl), ?_⟩
  intro k hk v hv
  rw [hsz] at hk ⊢
  rw [hkd]
  cases hk with
  | @cons i0 _ ks _ hk0 hks =>
  have key := g2 [i0] (index1 hk0) (rm (l.map DDim.n) ks * p.vn + v) (lin_lt (rm_lt hks) hv)
  have eo : p.outAt (i0 :: ks) = (i0 / d0.ob, i0 % d0.ob * (l.map DDim.n).prod + rm (l.map DDim.n) ks) := by
    unfold MRdftP.outAt MRdftP.outD
    rw [hfl, hsz, List.map_cons, whole_out lo]
    simp only [Bool.false_eq_true, if_false]
    exact place_cons hks
  rw [eo, ← relt_regroup]
  simp only [MRdftP.outAt, MRdftP.inAt, MRdftP.outD, MRdftP.inD, Bool.false_eq_true, if_false, List.map_cons, List.map_nil, place1] at key
  refine key.trans ?_
  show ∑ i ∈ Finset.range d0.n, _ = ∑ i ∈ Finset.range d0.n, _
  refine Finset.sum_congr rfl fun i hi => ?_
  congr 1
  have hi := Finset.mem_range.1 hi
  show relt _ _ _ _ (place [(d0.n, d0.ib)] [i]) _ = _
  rw [place1, relt_regroup]
  exact g1 i hi ks hks v hv

theorem bigvec_sound (r : Rearrange) (preserve : Bool) : (rdftRank1Bigvec r preserve).Sound := by
  intro pr fl hk
  cases pr with
  | transpose p => exact fun f hf => by simp at hf
  | dft p => exact fun f hf => by simp at hf
  | rdft p =>
  have h : p.Ok fl := hk
  show (bigvecMk r preserve p fl).Good fl _
  unfold bigvecMk
  have none_ : ∀ f, (none : Option MPlan) = some f → MSound fl.nd (.rdft p) f := fun f hf => by simp at hf
  rcases hsz : p.sz with _ | ⟨d, _ | ⟨d1, rest⟩⟩
  · exact none_
  swap
  · exact none_
  rcases hkd : p.kind with _ | ⟨k0, kinds⟩
  · exact none_
  simp only
  by_cases ha : (decide ({ p.flags with bigvecOnly := false } = ({} : MFlags)) && preserveOk preserve p fl &&
        r.applicable d p.vn p.comm.length && notSlow p fl) = true
  swap
  · rw [if_pos (by rw [Bool.not_eq_true] at ha; rw [ha]; rfl)]
    exact none_
  rw [if_neg (by rw [ha]; decide)]
  simp only [Bool.and_eq_true, decide_eq_true_eq] at ha
  obtain ⟨⟨⟨hfl, hpre⟩, happ⟩, hsl⟩ := ha
  have R : Rows fl p d [] k0 kinds := ⟨h, hsz, hkd, by simp⟩
  have hkn : kinds = [] := List.length_eq_zero_iff.1 R.klen
  have hlen := R.len
  obtain ⟨hny, hdiv⟩ := rearrange_ny happ
  set ny := r.ny d p.vn p.comm.length with eny
  by_cases hny0 : ny = 0
  · rw [if_pos hny0]; exact none_
  rw [if_neg hny0]
  have nypos : 0 < ny := Nat.pos_of_ne_zero hny0
  obtain ⟨m, hm⟩ := hny
  have em : p.vn / ny = m := by rw [hm, Nat.mul_div_cancel_left _ nypos]
  rw [em]
  have hm0 : 0 < m := by
    have := h.vnpos
    rw [hm] at this
    exact Nat.pos_of_mul_pos_left this
  obtain ⟨n0, ib0, ib0', ob0, ob0'⟩ := R.dim0
  have hto : p.flags.transposedOut = false := congrArg MFlags.transposedOut hfl
  set yb := defaultBlock ny p.comm.length with eyb
  have yb0 : 0 < yb := defaultBlock_pos nypos hlen
  have pesY : ny ≤ p.comm.length * yb := defaultBlock_le hlen
  have pesO : d.n ≤ p.comm.length * d.ob := by
    have := h.pesOut
    rw [hsz, List.map_cons, List.prod_cons, List.map_nil, List.prod_nil, Nat.mul_one] at this
    exact le_numBlocks ob0 this
  have eoutD : p.outD = (d.n, d.ob) :: whole [] := by
    unfold MRdftP.outD
    rw [hto, hsz]; rfl
  have roomI : ∀ r < p.comm.length, block d.n d.ib r * ny * m ≤ p.space (p.comm.at r) := by
    intro r hr
    have := R.room r hr
    rw [List.map_nil, List.prod_nil, Nat.one_mul, hm] at this
    calc _ = block d.n d.ib r * (ny * m) := by ring
      _ ≤ _ := this
  have roomO : ∀ r < p.comm.length, block d.n d.ob r * ny * m ≤ p.space (p.comm.at r) := by
    intro r hr
    have := h.roomOut r hr
    rw [eoutD, localSize_cons (by simp), List.prod_nil, Nat.mul_one, hm] at this
    calc _ = block d.n d.ob r * (ny * m) := by ring
      _ ≤ _ := this
  have hmk : m = 1 ∨ p.comm.length ∣ ny := by
    rcases hdiv with h1 | h1
    · left
      rw [hm] at h1
      exact Nat.eq_of_mul_eq_mul_left nypos (by omega)
    · right; exact h1
  have roomM : ∀ r < p.comm.length, block ny yb r * (d.n * m) ≤ p.space (p.comm.at r) := by
    intro r hr
    have := h.roomMid (slow_ok h hsl) hfl d [] hsz (by simp) r hr
    rw [List.map_nil, List.prod_nil, Nat.one_mul, hm, ← mid_block hlen hr hmk] at this
    calc _ = d.n * (block ny yb r * m) := by ring
      _ ≤ _ := this
  set pre := (preserve || fl.nd) with epre
  have hnd : pre = false → fl.nd = false := fun e => by rw [epre] at e; simpa using (Bool.or_eq_false_iff.1 e).2
  have einp := last_inpl h pre hlen
  have ap2 : MApart p.comm p.space (pre = true ∨ p.inpl) p.O (sel pre p.I p.O) := (h.apart.last pre).symm
  have edims : ∀ me, rdftPr [eqDim d.n m] [k0] [eqDim (block ny yb me) (m * d.n), eqDim m 1] (p.O (p.comm.at me)) ((if pre = true then p.O else p.I) (p.comm.at me)) =
      rdftPr (sgl [(d.n, m)]) [k0] (sgl [(block ny yb me, d.n * m), (m, 1)]) (p.O (p.comm.at me)) (sel pre p.I p.O (p.comm.at me)) := by
    intro me
    rw [show m * d.n = d.n * m by ring]
    rfl
  simp only [edims]
  refine good_needM none_ ?_ fun before hcb => good_needLoc none_ ?_ fun cld hc => good_needM none_ ?_ fun after hca f hf' => ?_
  · refine mkTrans_ok h.nodup (by omega) nypos (by omega) ib0 yb0 R.pes pesY roomI (fun r hr => ?_) h.apart
    calc _ = block ny yb r * (d.n * m) := by ring
      _ ≤ _ := roomM r hr
  · exact stage_kosher (comm := p.comm) (space := p.space) (a := fun _ => [(d.n, m)]) (kd := fun _ => [k0]) (b := fun me => [(block ny yb me, d.n * m), (m, 1)]) (fun _ _ => rfl)
      (fun me _ => fits_cols _ _ _) (by simp; omega) roomM ap2
  · refine mkTrans_ok h.nodup nypos (by omega) (by omega) yb0 ob0 pesY pesO (fun r hr => ?_) (fun r hr => ?_) ?_
    · calc _ = block ny yb r * (d.n * m) := by ring
        _ ≤ _ := roomM r hr
    · calc _ = block d.n d.ob r * ny * m := by ring
        _ ≤ _ := roomO r hr
    · show MApart _ _ (sel pre p.I p.O (p.comm.at 0) = p.O (p.comm.at 0)) (sel pre p.I p.O) p.O
      rw [einp]
      exact h.apart.last pre
  obtain rfl := Option.some.inj hf'
  rw [modify_default] at hc hcb hca
  intro I O st hcm
  obtain ⟨f1, g1⟩ := tok_relt hcb hcm
  set st1 := before I O st with est1
  have hcm1 : MCompat p.comm p.space p.inpl I O st1 := hcm.later fun w hw => (f1.frame w hw).next
  obtain ⟨f2, g2⟩ := stage (a := fun _ => [(d.n, m)]) (kd := fun _ => [k0]) (b := fun me => [(block ny yb me, d.n * m), (m, 1)]) (N := fun me => block ny yb me * (d.n * m))
      h.nodup (fun _ _ => rfl) (fun me _ => fits_cols _ _ _) (by simp; omega) roomM ap2 (hcm1.last pre).symm (nd := fl.nd) (c := cld) hc
  set st2 := p.comm.run (fun me => (cld me).rdftApply (O (p.comm.at me)) (sel pre I O (p.comm.at me))) st1 with est2
  have hcm2 : MCompat p.comm p.space (sel pre p.I p.O (p.comm.at 0) = p.O (p.comm.at 0)) (sel pre I O) O st2 := by
    rw [einp]
    exact (hcm1.later fun w hw => (f2.frame w hw).next).last pre
  obtain ⟨f3, g3⟩ := tok_relt hca hcm2
  refine ⟨(f1.trans (f2.to (fun w => Or.inl rfl) (sel_Q hnd I O))).trans (f3.to (sel_P pre I O) fun w => Or.inl rfl), ?_⟩
  intro k hk v hv
  rw [hsz] at hk ⊢
  rw [hkd, hkn]
  cases hk with
  | @cons k _ ks _ hk0 hks =>
  cases hks
  have eo : p.outAt [k] = (k / d.ob, k % d.ob) := by
    unfold MRdftP.outAt
    rw [eoutD, hto]
    exact place1 _ _ _
  have ei : ∀ j, p.inAt [j] = (j / d.ib, j % d.ib) := by
    intro j
    unfold MRdftP.inAt
    rw [R.inD]
    exact place1 _ _ _
  obtain ⟨y, u, hy, hu, rfl⟩ : ∃ y u, y < ny ∧ u < m ∧ v = y * m + u :=
    ⟨v / m, v % m, Nat.div_lt_of_lt_mul (by rw [Nat.mul_comm]; omega), Nat.mod_lt _ hm0, by rw [Nat.mul_comm]; exact (Nat.div_add_mod _ _).symm⟩
  rw [eo, hm, relt_regroup]
  refine (g3 y hy k hk0 u hu).trans ?_
  have key := g2 (y / yb) (blockLt hy yb0 pesY) [k] (index1 hk0) [y % yb, u] (index2 (block_mod hy yb0) hu)
  have el : ∀ i, (y % yb * d.n + i) * m + u = lin [(d.n, m)] [i] + lin [(block ny yb (y / yb), d.n * m), (m, 1)] [y % yb, u] := by
    intro i
    simp only [lin]
    ring
  rw [relt_eq, el]
  refine key.trans ?_
  show ∑ i ∈ Finset.range d.n, _ = ∑ i ∈ Finset.range d.n, _
  refine Finset.sum_congr rfl fun i hi => ?_
  congr 1
  have hi := Finset.mem_range.1 hi
  show rval _ _ (lin [(d.n, m)] [i] + _) = relt _ _ _ _ (p.inAt [i]) _
  rw [← el, ← relt_eq, g1 i hi y hy u hu, ei, relt_regroup]

end FFTW.Mpi.Rdft
