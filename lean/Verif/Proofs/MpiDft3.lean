import Verif.Proofs.MpiDft2

/-! `mpi/dft-serial.c`, `mpi/dft-rank-geq2-transposed.c` -/

namespace FFTW.Mpi
open Tensor Spec RdftS
variable [CLib]

theorem le_numBlocks {n b k : ℕ} (hb : 0 < b) (h : numBlocks n b ≤ k) : n ≤ k * b := by
  unfold numBlocks at h
  have h1 := Nat.div_add_mod (n + b - 1) b
  have h2 := Nat.mod_lt (n + b - 1) hb
  have h3 : b * ((n + b - 1) / b) ≤ b * k := Nat.mul_le_mul_left _ h
  have h4 : b * k = k * b := Nat.mul_comm _ _
  omega

theorem dftSum_congr {ns : List ℕ} {x y : List ℕ → ℂ} : ∀ {k : List ℕ}, Index ns k → (∀ j, Index ns j → x j = y j) → dftSum ns k x = dftSum ns k y := by
  induction ns generalizing x y with
  | nil => intro k hk h; cases hk; exact h [] .nil
  | cons n ns ih =>
    intro k hk h
    cases hk with
    | @cons i _ ks _ hi hk =>
    show ∑ j ∈ Finset.range n, _ = ∑ j ∈ Finset.range n, _
    refine Finset.sum_congr rfl fun j hj => ?_
    congr 1
    exact ih hk fun js hjs => h (j :: js) (.cons (Finset.mem_range.1 hj) hjs)

theorem index1 {n k : ℕ} (h : k < n) : Index [n] [k] := .cons h .nil
theorem index2 {n m i j : ℕ} (h : i < n) (h2 : j < m) : Index [n, m] [i, j] := .cons h (index1 h2)

variable {p : MDftP} {fl : Flags}

theorem six_long {d e : DDim} {l : List DDim} (h : p.sz = d :: e :: l) : p.sixStep = none := by unfold MDftP.sixStep; rw [h]
theorem six_flags (h : p.flags = {}) (h2 : ∀ e ∈ p.sz, e.ib = e.n ∧ e.ob = e.n) : p.sixStep = none := by
  unfold MDftP.sixStep
  split
  · rename_i d hd
    rw [if_neg fun hc => hc.2.2 ⟨h, h2 d (by rw [hd]; simp)⟩]
  · rfl
theorem six_vec (h : { p.flags with bigvecOnly := false } = ({} : MFlags)) (h2 : p.comm.length ≤ p.vn ∨ p.flags.bigvecOnly = true) : p.sixStep = none := by
  unfold MDftP.sixStep
  split
  · refine if_neg fun hc => ?_
    rcases hb : p.flags.bigvecOnly with _ | _
    · have : p.flags = {} := by
        rw [← h]
        cases hf : p.flags
        rw [hf] at hb
        simp only at hb
        rw [hb]
      rcases hc.2.1 with h3 | h3
      · rw [hb] at h2
        simp at h2
        omega
      · exact h3 this
    · have := hc.1
      unfold MFlags.onlyScrambled at this
      simp [hb] at this
  · rfl
theorem inAt_none (h : p.sixStep = none) (j : List ℕ) : p.inAt j = place p.inD j := by unfold MDftP.inAt; rw [h]
theorem outAt_none (h : p.sixStep = none) (k : List ℕ) : p.outAt k = place p.outD (if p.flags.transposedOut then swap2 k else k) := by unfold MDftP.outAt; rw [h]
theorem inSize_none (h : p.sixStep = none) (r : ℕ) : p.inSize r = localSize p.inD r := by unfold MDftP.inSize; rw [h]
theorem outSize_none (h : p.sixStep = none) (r : ℕ) : p.outSize r = localSize p.outD r := by unfold MDftP.outSize; rw [h]

/-- local dimensions -/
theorem local_of (h : p.Ok fl) {l : List DDim} (hl : ∀ e ∈ l, e ∈ p.sz) :
    ((l.all fun d => !decide (numBlocks d.n (d.b .IB) > 1)) = true → ∀ e ∈ l, e.ib = e.n) ∧
    ((l.all fun d => !decide (numBlocks d.n (d.b .OB) > 1)) = true → ∀ e ∈ l, e.ob = e.n) := by
  constructor
  · intro ha e he
    have h1 := List.all_eq_true.1 ha e he
    obtain ⟨_, h3, h4, _⟩ := h.pos e (hl e he)
    have h2 : numBlocks e.n e.ib ≤ 1 := by
      by_contra hc
      have : numBlocks e.n (e.b .IB) > 1 := by show numBlocks e.n e.ib > 1; omega
      simp [this] at h1
    have := le_numBlocks h3 h2
    omega
  · intro ha e he
    have h1 := List.all_eq_true.1 ha e he
    obtain ⟨_, _, _, h3, h4⟩ := h.pos e (hl e he)
    have h2 : numBlocks e.n e.ob ≤ 1 := by
      by_contra hc
      have : numBlocks e.n (e.b .OB) > 1 := by show numBlocks e.n e.ob > 1; omega
      simp [this] at h1
    have := le_numBlocks h3 h2
    omega

theorem whole_in {l : List DDim} (h : ∀ e ∈ l, e.ib = e.n) : (l.map fun d => (d.n, d.ib)) = whole (l.map DDim.n) := by
  unfold whole
  rw [List.map_map]
  exact List.map_congr_left fun e he => by simp [h e he]
theorem whole_out {l : List DDim} (h : ∀ e ∈ l, e.ob = e.n) : (l.map fun d => (d.n, d.ob)) = whole (l.map DDim.n) := by
  unfold whole
  rw [List.map_map]
  exact List.map_congr_left fun e he => by simp [h e he]

theorem npos (h : p.Ok fl) {l : List DDim} (hl : ∀ e ∈ l, e ∈ p.sz) : ∀ n ∈ l.map DDim.n, 0 < n := by
  intro n hn
  obtain ⟨e, he, rfl⟩ := List.mem_map.1 hn
  have := (h.pos e (hl e he)).1
  omega

theorem prod_pos {ns : List ℕ} (h : ∀ n ∈ ns, 0 < n) : 0 < ns.prod := by
  rw [Nat.pos_iff_ne_zero]
  intro h0
  have := List.prod_eq_zero_iff.1 h0
  exact absurd (h 0 this) (by omega)

theorem nb_map {l : List DDim} (hl : ∀ n ∈ l.map DDim.n, 0 < n) (g : DDim → ℕ) (h : ∀ e ∈ l, g e = e.n) : (l.map fun d => numBlocks d.n (g d)).prod = 1 := by
  have : (l.map fun d => numBlocks d.n (g d)) = (whole (l.map DDim.n)).map fun d => numBlocks d.1 d.2 := by
    unfold whole
    rw [List.map_map, List.map_map]
    exact List.map_congr_left fun e he => by simp [h e he]
  rw [this, nb_whole hl]

/-- a problem whose input is distributed along the first dimension only -/
structure Rows (fl : Flags) (p : MDftP) (d0 : DDim) (l : List DDim) : Prop where
  ok : p.Ok fl
  ns : p.sixStep = none
  sz : p.sz = d0 :: l
  loc : ∀ e ∈ l, e.ib = e.n

theorem Rows.sub {d0 : DDim} {l : List DDim} (h : Rows fl p d0 l) : ∀ e ∈ l, e ∈ p.sz := fun e he => by rw [h.sz]; simp [he]
theorem Rows.d0 {d0 : DDim} {l : List DDim} (h : Rows fl p d0 l) : 1 < d0.n ∧ 0 < d0.ib ∧ d0.ib ≤ d0.n ∧ 0 < d0.ob ∧ d0.ob ≤ d0.n := h.ok.pos d0 (by rw [h.sz]; simp)
theorem Rows.inD {d0 : DDim} {l : List DDim} (h : Rows fl p d0 l) : p.inD = (d0.n, d0.ib) :: whole (l.map DDim.n) := by
  unfold MDftP.inD
  rw [h.sz, List.map_cons, whole_in h.loc]
theorem Rows.pes {d0 : DDim} {l : List DDim} (h : Rows fl p d0 l) : d0.n ≤ p.comm.length * d0.ib := by
  have := h.ok.pes
  rw [h.sz, List.map_cons, List.prod_cons, nb_map (npos h.ok h.sub) DDim.ib h.loc, Nat.mul_one] at this
  exact le_numBlocks h.d0.2.1 this
theorem Rows.room {d0 : DDim} {l : List DDim} (h : Rows fl p d0 l) : ∀ r < p.comm.length, block d0.n d0.ib r * ((l.map DDim.n).prod * p.vn) * 2 ≤ p.space (p.comm.at r) := by
  intro r hr
  have := h.ok.roomIn r hr
  rw [inSize_none h.ns, h.inD, localSize_cons (npos h.ok h.sub)] at this
  rwa [Nat.mul_assoc (block _ _ _)] at this
theorem Rows.inAt {d0 : DDim} {l : List DDim} (h : Rows fl p d0 l) {i : ℕ} {ks : List ℕ} (hk : Index (l.map DDim.n) ks) :
    p.inAt (i :: ks) = (i / d0.ib, i % d0.ib * (l.map DDim.n).prod + rm (l.map DDim.n) ks) := by
  rw [inAt_none h.ns, h.inD, place_cons hk]

/-- sizes and strides of the vector of rows -/
def rowV (p : MDftP) (d0 : DDim) (l : List DDim) (me : ℕ) : List (ℕ × ℕ) := [(block d0.n d0.ib me, (l.map DDim.n).prod * p.vn), (p.vn, 1)]

theorem restSz_eq {d0 : DDim} {l : List DDim} (h : Rows fl p d0 l) : restSz p = dbl (rowsL p.vn (l.map DDim.n)) := by
  unfold restSz
  rw [h.sz, List.tail_cons, rowMajor_eq]
theorem rowVec_eq {d0 : DDim} {l : List DDim} (h : Rows fl p d0 l) (me : ℕ) : rowVec p d0 me = dbl (rowV p d0 l me) := by
  unfold rowVec rowV dbl
  rw [h.sz, List.tail_cons]
  simp only [List.map_cons, List.map_nil]
  rw [Nat.mul_assoc]

theorem rows_kosher {d0 : DDim} {l : List DDim} (h : Rows fl p d0 l) (pre : Bool) :
    ∀ me < p.comm.length, ∀ x, some (dftPr p.bwd (restSz p) (rowVec p d0 me) (p.I (p.comm.at me)) (sel pre p.I p.O (p.comm.at me))) = some x → Kosher x := by
  intro me hme x hx
  rw [restSz_eq h, rowVec_eq h] at hx
  refine stage_kosher (a := fun _ => rowsL p.vn (l.map DDim.n)) (b := fun me => rowV p d0 l me) (fun me _ => fits_rows p.vn (block d0.n d0.ib me) (l.map DDim.n)) ?_ h.room
    (h.ok.apart.first pre) me hme x hx
  intro me _ e he
  have : e.1 ∈ (rowsL p.vn (l.map DDim.n)).map Prod.fst := List.mem_map_of_mem he
  rw [rowsL_fst] at this
  exact npos h.ok h.sub _ this

/-- the local dimensions are transformed -/
theorem rows_stage {d0 : DDim} {l : List DDim} (h : Rows fl p d0 l) {pre nd : Bool} {c : ℕ → Plan}
    (hs : ∀ me < p.comm.length, ∀ x, some (dftPr p.bwd (restSz p) (rowVec p d0 me) (p.I (p.comm.at me)) (sel pre p.I p.O (p.comm.at me))) = some x → FFTW.Sound nd x (c me))
    {I O : ℕ → Ptr} {st : Dist} (hc : MCompat p.comm p.space p.inpl I O st) :
    let st1 := p.comm.run (fun me => applyDft p.bwd (c me) (I (p.comm.at me)) (sel pre I O (p.comm.at me))) st
    MFrame p.comm p.space nd I (sel pre I O) st st1 ∧ ∀ i < d0.n, ∀ ks, Index (l.map DDim.n) ks → ∀ v < p.vn,
      elt p.bwd p.vn p.comm (sel pre I O) st1 (i / d0.ib, i % d0.ib * (l.map DDim.n).prod + rm (l.map DDim.n) ks) v =
        dftSum (l.map DDim.n) ks fun js => elt p.bwd p.vn p.comm I st (p.inAt (i :: js)) v := by
  intro st1
  obtain ⟨g1, g2⟩ := stage (a := fun _ => rowsL p.vn (l.map DDim.n)) (b := fun me => rowV p d0 l me) h.ok.nodup (fun me _ => fits_rows p.vn (block d0.n d0.ib me) (l.map DDim.n)) h.room
    (h.ok.apart.first pre) (hc.first pre) (c := c) (bwd := p.bwd) (nd := nd) (by
      intro me hme x hx
      rw [← restSz_eq h, ← rowVec_eq h] at hx
      exact hs me hme x hx)
  refine ⟨g1, fun i hi ks hks v hv => ?_⟩
  have hr := blockLt hi h.d0.2.1 h.pes
  have := g2 (i / d0.ib) hr ks (by rw [rowsL_fst]; exact hks) [i % d0.ib, v] (index2 (block_mod hi h.d0.2.1) hv)
  simp only [rowsL_fst] at this
  have el : ∀ js, Index (l.map DDim.n) js → lin (rowsL p.vn (l.map DDim.n)) js + lin (rowV p d0 l (i / d0.ib)) [i % d0.ib, v] =
      (i % d0.ib * (l.map DDim.n).prod + rm (l.map DDim.n) js) * p.vn + v := by
    intro js hjs
    rw [lin_rows _ _ _ hjs]
    simp only [rowV, lin]
    ring
  rw [el ks hks] at this
  rw [elt_eq]
  refine this.trans (dftSum_congr hks fun js hjs => ?_)
  rw [el js hjs, h.inAt hjs, elt_eq]

/-- mpi/dft-serial.c -/
theorem serial_sound (ub : MDftP → MPlan) : (dftSerial ub).Sound := by
  intro pr fl hk
  cases pr with
  | transpose p => exact fun f hf => by simp at hf
  | rdft p => exact fun f hf => by simp at hf
  | dft p =>
  have h : p.Ok fl := hk
  show (serialMk ub p fl).Good fl _
  unfold serialMk
  by_cases ha : dftSerialApplicable p = true
  swap
  · rw [if_pos (by simpa using ha)]
    exact fun f hf => by simp at hf
  rw [if_neg (by simp [ha]), if_neg (fun hc => h.rnk hc.2)]
  have hv0 := h.vnpos
  unfold dftSerialApplicable at ha
  simp only [Bool.and_eq_true, decide_eq_true_eq, Bool.or_eq_true] at ha
  obtain ⟨hfl, hloc⟩ := ha
  obtain ⟨hi, ho⟩ : isLocalAfter 0 p.sz .IB = true ∧ isLocalAfter 0 p.sz .OB = true := by
    rcases hloc with h1 | h1
    · exact h1
    · omega
  have lin_ := (local_of h (l := p.sz) fun e he => he).1 (by simpa [isLocalAfter] using hi)
  have lout := (local_of h (l := p.sz) fun e he => he).2 (by simpa [isLocalAfter] using ho)
  have ns : p.sixStep = none := six_flags hfl fun e he => ⟨lin_ e he, lout e he⟩
  have einD : p.inD = whole (p.sz.map DDim.n) := whole_in lin_
  have eoutD : p.outD = whole (p.sz.map DDim.n) := by
    unfold MDftP.outD
    rw [hfl]; exact whole_out lout
  have hlen : 0 < p.comm.length := by
    have := h.pes
    rw [nb_map (npos h fun e he => he) DDim.ib lin_] at this
    omega
  simp only
  have hpr : ∀ me, (if me = 0 ∧ p.vn > 0 then dftPr p.bwd (rowMajor (p.vn * 2) (p.sz.map DDim.n)) [eqDim p.vn 2] (p.I (p.comm.at me)) (p.O (p.comm.at me))
      else dftPr p.bwd [] [eqDim 0 0] (p.I (p.comm.at me)) (p.O (p.comm.at me))) =
      dftPr p.bwd (dbl (if me = 0 then rowsL p.vn (p.sz.map DDim.n) else [])) (dbl (if me = 0 then [(p.vn, 1)] else [(0, 0)])) (p.I (p.comm.at me)) (p.O (p.comm.at me)) := by
    intro me
    by_cases h0 : me = 0
    · rw [if_pos ⟨h0, hv0⟩, if_pos h0, if_pos h0, rowMajor_eq]; rfl
    · rw [if_neg (fun hc => h0 hc.1), if_neg h0, if_neg h0]; rfl
  simp only [hpr]
  have hf : ∀ me < p.comm.length, Fits (zst ((if me = 0 then rowsL p.vn (p.sz.map DDim.n) else []) ++ (if me = 0 then [(p.vn, 1)] else [(0, 0)])))
      (if me = 0 then (p.sz.map DDim.n).prod * p.vn else 0) := by
    intro me _
    by_cases h0 : me = 0
    · rw [if_pos h0, if_pos h0, if_pos h0]; exact fits_whole _ _
    · rw [if_neg h0, if_neg h0, if_neg h0]
      exact ⟨by simp [zst, offs], by simp [zst, offs]⟩
  have hr : ∀ me < p.comm.length, (if me = 0 then (p.sz.map DDim.n).prod * p.vn else 0) * 2 ≤ p.space (p.comm.at me) := by
    intro me hme
    by_cases h0 : me = 0
    · subst h0
      rw [if_pos rfl]
      have := h.roomIn 0 hlen
      rwa [inSize_none ns, einD, localSize_whole (npos h fun e he => he)] at this
    · rw [if_neg h0]; omega
  refine good_needLoc (fun f hf => by simp at hf) ?_ fun cld hc f hf' => ?_
  · refine stage_kosher (comm := p.comm) (space := p.space) hf ?_ hr h.apart
    intro me _ e he
    split at he
    · have : e.1 ∈ (rowsL p.vn (p.sz.map DDim.n)).map Prod.fst := List.mem_map_of_mem he
      rw [rowsL_fst] at this
      exact npos h (fun e he => he) _ this
    · simp at he
  obtain rfl := Option.some.inj hf'
  rw [modify_default] at hc
  intro I O st hcm
  obtain ⟨g1, g2⟩ := stage (bwd := p.bwd) h.nodup hf hr h.apart hcm hc
  refine ⟨g1, fun k hk v hv => ?_⟩
  have := g2 0 hlen k (by rw [if_pos rfl, rowsL_fst]; exact hk) [v] (by rw [if_pos rfl]; exact index1 hv)
  simp only [if_true, rowsL_fst] at this
  have el : ∀ js, Index (p.sz.map DDim.n) js → lin (rowsL p.vn (p.sz.map DDim.n)) js + lin [(p.vn, 1)] [v] = rm (p.sz.map DDim.n) js * p.vn + v := by
    intro js hjs
    rw [lin_rows _ _ _ hjs]
    simp [lin]
  have ho : p.outAt k = (0, rm (p.sz.map DDim.n) k) := by
    rw [outAt_none ns, eoutD, hfl]
    exact place_whole hk
  rw [ho, elt_eq, ← el k hk]
  refine this.trans (dftSum_congr hk fun js hjs => ?_)
  have hi' : p.inAt js = (0, rm (p.sz.map DDim.n) js) := by
    rw [inAt_none ns, einD]
    exact place_whole hjs
  rw [el js hjs, hi', elt_eq]

end FFTW.Mpi
