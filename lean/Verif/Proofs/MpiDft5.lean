import Verif.Proofs.MpiDft4

/-! `mpi/dft-rank-geq2.c`, `mpi/dft-rank1-bigvec.c` -/

namespace FFTW.Mpi
open Tensor Spec RdftS
variable [CLib]
variable {p : MDftP} {fl : Flags}

theorem clip_self {n b : ℕ} (hb : 0 < b) (h : b ≤ n) : (if numBlocks n b = 1 then n else b) = b := by
  split
  · rename_i h1
    have := le_numBlocks hb (le_of_eq h1)
    omega
  · rfl

theorem canonical_self {d : DDim} (h : 1 < d.n ∧ 0 < d.ib ∧ d.ib ≤ d.n ∧ 0 < d.ob ∧ d.ob ≤ d.n) : d.canonical = d := by
  obtain ⟨_, h1, h2, h3, h4⟩ := h
  unfold DDim.canonical
  rw [clip_self h1 h2, clip_self h3 h4]

theorem mkDft_single {d : DDim} (h : 1 < d.n ∧ 0 < d.ib ∧ d.ib ≤ d.n ∧ 0 < d.ob ∧ d.ob ≤ d.n) (vn : ℕ) (I O : ℕ → Ptr) (comm : Comm) (bwd : Bool) (flags : MFlags) (space : ℕ → ℕ) :
    mkDft [d] vn I O comm bwd flags space = { sz := [d], vn, I, O, comm, bwd, flags, space } := by
  have : canonical [d] = [d] := by
    unfold canonical
    rw [List.filter_cons_of_pos (by simpa using h.1), List.filter_nil, List.map_cons, canonical_self h]
    rfl
  unfold mkDft
  rw [this, if_neg (by simp)]

/-- the first dimension of a problem whose other dimensions are local -/
theorem vec_ok {d0 : DDim} {l : List DDim} (R : Rows fl p d0 l) (hl : l ≠ []) (lo : ∀ e ∈ l, e.ob = e.n) (hfl : p.flags = {}) (hsl : p.oneProcess → fl.l &&& NO_SLOW = 0) (pre : Bool) :
    ({ sz := [d0], vn := (l.map DDim.n).prod * p.vn, I := sel pre p.I p.O, O := p.O, comm := p.comm, bwd := p.bwd, flags := { bigvecOnly := true }, space := p.space } : MDftP).Ok fl where
  nodup := R.ok.nodup
  rnk := by simp
  vnpos := Nat.mul_pos (prod_pos (npos R.ok R.sub)) R.ok.vnpos
  pos := by intro d hd; obtain rfl := List.mem_singleton.1 hd; exact R.d0
  pes := by
    have := R.ok.pes
    rw [R.sz, List.map_cons, List.prod_cons, nb_map (npos R.ok R.sub) DDim.ib R.loc] at this
    simpa using this
  pesOut := by
    have := R.ok.pesOut
    rw [R.sz, List.map_cons, List.prod_cons, nb_map (npos R.ok R.sub) DDim.ob lo] at this
    simpa using this
  roomIn r hr := by
    have := R.room r hr
    rw [inSize_none (six_vec rfl (Or.inr rfl))]
    show localSize ((d0.n, d0.ib) :: whole []) r * _ * 2 ≤ _
    rw [localSize_cons (by simp)]
    simpa using this
  roomOut r hr := by
    have := R.ok.roomOut r hr
    rw [outSize_none R.ns] at this
    unfold MDftP.outD at this
    rw [hfl, R.sz, List.map_cons, whole_out lo] at this
    rw [outSize_none (six_vec rfl (Or.inr rfl))]
    show localSize ((d0.n, d0.ob) :: whole []) r * _ * 2 ≤ _
    rw [localSize_cons (by simp)]
    simp only [Bool.false_eq_true, if_false] at this
    rw [localSize_cons (npos R.ok R.sub), Nat.mul_assoc (block _ _ _)] at this
    simpa using this
  roomMid := by
    intro _ _ d l' e _ _ r hr
    obtain ⟨rfl, rfl⟩ := List.cons.inj e
    have := R.ok.roomMid hsl (by rw [hfl]) d0 l R.sz (fun e he => ⟨R.loc e he, lo e he⟩) (fun e => absurd e hl) r hr
    simpa using this
  roomSix r m h := by rw [six_vec rfl (Or.inr rfl)] at h; simp at h
  clear h := by simpa [MFlags] using h.1
  apart := by
    have hl := R.len
    show MApart _ _ (sel pre p.I p.O (p.comm.at 0) = p.O (p.comm.at 0)) (sel pre p.I p.O) p.O
    rw [last_inpl R.ok pre hl]
    exact R.ok.apart.last pre

theorem geq2_sound (preserve : Bool) : (dftRankGeq2 preserve).Sound := by
  intro pr fl hk
  cases pr with
  | transpose p => exact fun f hf => by simp at hf
  | rdft p => exact fun f hf => by simp at hf
  | dft p =>
  have h : p.Ok fl := hk
  show (geq2Mk preserve p fl).Good fl _
  unfold geq2Mk
  have none_ : ∀ f, (none : Option MPlan) = some f → MSound fl.nd (.dft p) f := fun f hf => by simp at hf
  rcases hsz : p.sz with _ | ⟨d0, _ | ⟨d1, rest⟩⟩
  · exact none_
  · exact none_
  simp only
  by_cases ha : (decide (p.flags = {}) && preserveOk preserve p fl && isLocalAfter 1 (d0 :: d1 :: rest) .IB && isLocalAfter 1 (d0 :: d1 :: rest) .OB && notSlow p fl) = true
  swap
  · rw [if_pos (by rw [Bool.not_eq_true] at ha; rw [ha]; rfl)]
    exact none_
  rw [if_neg (by simp [ha])]
  simp only [Bool.and_eq_true, decide_eq_true_eq] at ha
  obtain ⟨⟨⟨⟨hfl, hpre⟩, hi⟩, ho⟩, hsl⟩ := ha
  have sub1 : ∀ e ∈ d1 :: rest, e ∈ p.sz := fun e he => by rw [hsz]; exact List.mem_cons_of_mem _ he
  have R : Rows fl p d0 (d1 :: rest) := ⟨h, six_long hsz, hsz, (local_of h sub1).1 (by simpa [isLocalAfter] using hi)⟩
  have lo := (local_of h sub1).2 (by simpa [isLocalAfter] using ho)
  set l := d1 :: rest with el
  set pre := (preserve || fl.nd) with epre
  have hnd : pre = false → fl.nd = false := fun e => by rw [epre] at e; simpa using (Bool.or_eq_false_iff.1 e).2
  have einp := last_inpl h pre R.len
  rw [mkDft_single R.d0]
  refine good_needLoc none_ (rows_kosher R pre) fun cld1 hc1 => good_needM none_ (by rw [modify_default]; exact vec_ok R (by simp [el]) lo hfl (slow_ok h hsl) pre) fun cld2 hc2 f hf' => ?_
  obtain rfl := Option.some.inj hf'
  rw [modify_default] at hc1 hc2
  intro I O st hcm
  obtain ⟨f1, g1⟩ := rows_stage R (pre := pre) (nd := fl.nd) hc1 hcm
  set st1 := p.comm.run (fun me => applyDft p.bwd (cld1 me) (I (p.comm.at me)) (sel pre I O (p.comm.at me))) st with est1
  have hcm1 : MCompat p.comm p.space (sel pre p.I p.O (p.comm.at 0) = p.O (p.comm.at 0)) (sel pre I O) O st1 := by
    rw [einp]
    exact (hcm.later fun w hw => (f1.frame w hw).next).last pre
  obtain ⟨f2, g2⟩ := hc2 (sel pre I O) O st1 hcm1
  refine ⟨(f1.to (fun w => Or.inr rfl) (sel_Q hnd I O)).trans (f2.to (sel_P pre I O) fun w => Or.inl rfl), ?_⟩
  intro k hk v hv
  rw [hsz] at hk ⊢
  cases hk with
  | @cons k0 _ ks _ hk0 hks =>
  have key := g2 [k0] (index1 hk0) (rm (l.map DDim.n) ks * p.vn + v) (lin_lt (rm_lt hks) hv)
  have eo : p.outAt (k0 :: ks) = (k0 / d0.ob, k0 % d0.ob * (l.map DDim.n).prod + rm (l.map DDim.n) ks) := by
    rw [outAt_none R.ns]
    unfold MDftP.outD
    rw [hfl, hsz, List.map_cons, whole_out lo]
    simp only [Bool.false_eq_true, if_false]
    exact place_cons hks
  have e1 : ∀ b j, place [(d0.n, b)] [j] = (j / b, j % b) := by
    intro b j
    have : place ((d0.n, b) :: whole []) [j] = _ := place_cons (k := j) .nil
    rw [show [(d0.n, b)] = (d0.n, b) :: whole [] from rfl, this]
    simp [rm]
  rw [eo, ← elt_regroup]
  have ns' : ({ sz := [d0], vn := (l.map DDim.n).prod * p.vn, I := sel pre p.I p.O, O := p.O, comm := p.comm, bwd := p.bwd, flags := { bigvecOnly := true }, space := p.space } : MDftP).sixStep = none := six_vec rfl (Or.inr rfl)
  simp only [outAt_none ns', inAt_none ns', MDftP.outD, MDftP.inD, Bool.false_eq_true, if_false, List.map_cons, List.map_nil, e1] at key
  refine key.trans ?_
  show ∑ i ∈ Finset.range d0.n, _ = ∑ i ∈ Finset.range d0.n, _
  refine Finset.sum_congr rfl fun i hi => ?_
  congr 1
  have hi := Finset.mem_range.1 hi
  show elt _ _ _ _ _ (place [(d0.n, d0.ib)] [i]) _ = _
  rw [e1, elt_regroup]
  exact g1 i hi ks hks v hv

theorem place1 (n b j : ℕ) : place [(n, b)] [j] = (j / b, j % b) := by
  have : place ((n, b) :: whole []) [j] = _ := place_cons (k := j) .nil
  rw [show [(n, b)] = (n, b) :: whole [] from rfl, this]
  simp [rm]

theorem defaultBlock_pos {n k : ℕ} (hn : 0 < n) (hk : 0 < k) : 0 < defaultBlock n k := Nat.div_pos (by omega) hk

theorem defaultBlock_le {n k : ℕ} (hk : 0 < k) : n ≤ k * defaultBlock n k := by
  unfold defaultBlock
  have h1 := Nat.div_add_mod (n + k - 1) k
  have h2 := Nat.mod_lt (n + k - 1) hk
  omega

theorem defaultBlock_dvd {q k : ℕ} (hk : 0 < k) : defaultBlock (k * q) k = q := by
  unfold defaultBlock
  rw [show k * q + k - 1 = (k - 1) + k * q by omega, Nat.add_mul_div_left _ _ hk, Nat.div_eq_of_lt (by omega)]
  omega

theorem dvd_of_divMult {a b : ℕ} (h : divMult b a = true) : b ∣ a := by
  unfold divMult at h
  simp only [Bool.and_eq_true, decide_eq_true_eq] at h
  exact Nat.dvd_of_mod_eq_zero h.2

/-- how the vector is split -/
theorem rearrange_ny {r : Rearrange} {d : DDim} {vn npes : ℕ} (h : r.applicable d vn npes = true) : r.ny d vn npes ∣ vn ∧ (r.ny d vn npes = vn ∨ npes ∣ r.ny d vn npes) := by
  cases r with
  | contig => exact ⟨dvd_rfl, Or.inl rfl⟩
  | discontig => exact ⟨dvd_of_divMult h, Or.inr dvd_rfl⟩
  | squareBefore =>
    obtain ⟨h1, h2⟩ := (Bool.and_eq_true_iff).1 h
    exact ⟨dvd_of_divMult h1, Or.inr (dvd_of_divMult h2)⟩
  | squareAfter =>
    obtain ⟨h1, h2⟩ := (Bool.and_eq_true_iff).1 ((Bool.and_eq_true_iff).1 h).2
    exact ⟨dvd_of_divMult h1, Or.inr (dvd_of_divMult h2)⟩
  | squareMiddle => exact ⟨dvd_of_divMult h, Or.inr (Dvd.intro_left _ rfl)⟩

theorem mid_block {ny m k r : ℕ} (hk : 0 < k) (hr : r < k) (h : m = 1 ∨ k ∣ ny) : block ny (defaultBlock ny k) r * m = block (ny * m) (defaultBlock (ny * m) k) r := by
  rcases h with rfl | ⟨q, rfl⟩
  · simp
  · rw [Nat.mul_assoc k, defaultBlock_dvd hk, defaultBlock_dvd hk, block_even (k := k) (Nat.mul_comm _ _) hr, block_even (k := k) (Nat.mul_comm _ _) hr]

theorem bigvec_sound (r : Rearrange) (preserve : Bool) : (dftRank1Bigvec r preserve).Sound := by
  intro pr fl hk
  cases pr with
  | transpose p => exact fun f hf => by simp at hf
  | rdft p => exact fun f hf => by simp at hf
  | dft p =>
  have h : p.Ok fl := hk
  show (bigvecMk r preserve p fl).Good fl _
  unfold bigvecMk
  have none_ : ∀ f, (none : Option MPlan) = some f → MSound fl.nd (.dft p) f := fun f hf => by simp at hf
  rcases hsz : p.sz with _ | ⟨d, _ | ⟨d1, rest⟩⟩
  · exact none_
  swap
  · exact none_
  simp only
  by_cases ha : (decide ({ p.flags with bigvecOnly := false } = ({} : MFlags)) && preserveOk preserve p fl && (decide (p.vn ≥ p.comm.length) || p.flags.bigvecOnly) &&
        r.applicable d p.vn p.comm.length && notSlow p fl) = true
  swap
  · rw [if_pos (by rw [Bool.not_eq_true] at ha; rw [ha]; rfl)]
    exact none_
  rw [if_neg (by rw [ha]; decide)]
  simp only [Bool.and_eq_true, decide_eq_true_eq, Bool.or_eq_true] at ha
  obtain ⟨⟨⟨⟨hfl, hpre⟩, hbig⟩, happ⟩, hsl⟩ := ha
  have R : Rows fl p d [] := ⟨h, six_vec hfl hbig, hsz, by simp⟩
  have hlen := R.len
  obtain ⟨hny, hdiv⟩ := rearrange_ny happ
  set ny := r.ny d p.vn p.comm.length with eny
  by_cases hny0 : ny = 0
  · rw [if_pos hny0]; exact none_
  rw [if_neg hny0]
  have nypos : 0 < ny := Nat.pos_of_ne_zero hny0
  obtain ⟨m, hm⟩ := hny
  have em : p.vn / ny = m := by rw [hm, Nat.mul_div_cancel_left _ nypos]
  rw [em]
  have hm0 : 0 < m := by
    have := h.vnpos
    rw [hm] at this
    exact Nat.pos_of_mul_pos_left this
  obtain ⟨n0, ib0, ib0', ob0, ob0'⟩ := R.d0
  have hto : p.flags.transposedOut = false := by
    have := congrArg MFlags.transposedOut hfl
    exact this
  set yb := defaultBlock ny p.comm.length with eyb
  have yb0 : 0 < yb := defaultBlock_pos nypos hlen
  have pesY : ny ≤ p.comm.length * yb := defaultBlock_le hlen
  have pesO : d.n ≤ p.comm.length * d.ob := by
    have := h.pesOut
    rw [hsz, List.map_cons, List.prod_cons, List.map_nil, List.prod_nil, Nat.mul_one] at this
    exact le_numBlocks ob0 this
  have eoutD : p.outD = (d.n, d.ob) :: whole [] := by
    unfold MDftP.outD
    rw [hto, hsz]; rfl
  have roomI : ∀ r < p.comm.length, block d.n d.ib r * ny * (m * 2) ≤ p.space (p.comm.at r) := by
    intro r hr
    have := R.room r hr
    rw [List.map_nil, List.prod_nil, Nat.one_mul, hm] at this
    calc _ = block d.n d.ib r * (ny * m) * 2 := by ring
      _ ≤ _ := this
  have roomO : ∀ r < p.comm.length, block d.n d.ob r * ny * (m * 2) ≤ p.space (p.comm.at r) := by
    intro r hr
    have := h.roomOut r hr
    rw [outSize_none R.ns, eoutD, localSize_cons (by simp), List.prod_nil, Nat.mul_one, hm] at this
    calc _ = block d.n d.ob r * (ny * m) * 2 := by ring
      _ ≤ _ := this
  have hmk : m = 1 ∨ p.comm.length ∣ ny := by
    rcases hdiv with h1 | h1
    · left
      rw [hm] at h1
      exact Nat.eq_of_mul_eq_mul_left nypos (by omega)
    · right; exact h1
  have roomM : ∀ r < p.comm.length, block ny yb r * (d.n * m) * 2 ≤ p.space (p.comm.at r) := by
    intro r hr
    have := h.roomMid (slow_ok h hsl) hfl d [] hsz (by simp) (fun _ => hbig) r hr
    rw [List.map_nil, List.prod_nil, Nat.one_mul, hm, ← mid_block hlen hr hmk] at this
    calc _ = d.n * (block ny yb r * m) * 2 := by ring
      _ ≤ _ := this
  set pre := (preserve || fl.nd) with epre
  have hnd : pre = false → fl.nd = false := fun e => by rw [epre] at e; simpa using (Bool.or_eq_false_iff.1 e).2
  have einp := last_inpl h pre hlen
  have ap2 : MApart p.comm p.space (pre = true ∨ p.inpl) p.O (sel pre p.I p.O) := (h.apart.last pre).symm
  have edims : ∀ me, dftPr p.bwd [eqDim d.n (m * 2)] [eqDim (block ny yb me) (m * 2 * d.n), eqDim m 2] (p.O (p.comm.at me)) ((if pre = true then p.O else p.I) (p.comm.at me)) =
      dftPr p.bwd (dbl [(d.n, m)]) (dbl [(block ny yb me, d.n * m), (m, 1)]) (p.O (p.comm.at me)) (sel pre p.I p.O (p.comm.at me)) := by
    intro me
    rw [show m * 2 * d.n = d.n * m * 2 by ring]
    rfl
  simp only [edims]
  refine good_needM none_ ?_ fun before hcb => good_needLoc none_ ?_ fun cld hc => good_needM none_ ?_ fun after hca f hf' => ?_
  · refine mkTrans_ok h.nodup (by omega) nypos (by omega) ib0 yb0 R.pes pesY roomI (fun r hr => ?_) h.apart
    calc _ = block ny yb r * (d.n * m) * 2 := by ring
      _ ≤ _ := roomM r hr
  · refine stage_kosher (comm := p.comm) (space := p.space) (a := fun _ => [(d.n, m)]) (b := fun me => [(block ny yb me, d.n * m), (m, 1)])
      (fun me _ => fits_cols _ _ _) (by simp; omega) roomM ap2
  · refine mkTrans_ok h.nodup nypos (by omega) (by omega) yb0 ob0 pesY pesO (fun r hr => ?_) (fun r hr => ?_) ?_
    · calc _ = block ny yb r * (d.n * m) * 2 := by ring
        _ ≤ _ := roomM r hr
    · calc _ = block d.n d.ob r * ny * (m * 2) := by ring
        _ ≤ _ := roomO r hr
    · show MApart _ _ (sel pre p.I p.O (p.comm.at 0) = p.O (p.comm.at 0)) (sel pre p.I p.O) p.O
      rw [einp]
      exact h.apart.last pre
  obtain rfl := Option.some.inj hf'
  rw [modify_default] at hc hcb hca
  intro I O st hcm
  obtain ⟨f1, g1⟩ := tok_elt (bwd := p.bwd) hcb hcm
  set st1 := before I O st with est1
  have hcm1 : MCompat p.comm p.space p.inpl I O st1 := hcm.later fun w hw => (f1.frame w hw).next
  obtain ⟨f2, g2⟩ := stage (bwd := p.bwd) (a := fun _ => [(d.n, m)]) (b := fun me => [(block ny yb me, d.n * m), (m, 1)]) (N := fun me => block ny yb me * (d.n * m))
      h.nodup (fun me _ => fits_cols _ _ _) roomM ap2 (hcm1.last pre).symm (nd := fl.nd) (c := cld) hc
  set st2 := p.comm.run (fun me => applyDft p.bwd (cld me) (O (p.comm.at me)) (sel pre I O (p.comm.at me))) st1 with est2
  have hcm2 : MCompat p.comm p.space (sel pre p.I p.O (p.comm.at 0) = p.O (p.comm.at 0)) (sel pre I O) O st2 := by
    rw [einp]
    exact (hcm1.later fun w hw => (f2.frame w hw).next).last pre
  obtain ⟨f3, g3⟩ := tok_elt (bwd := p.bwd) hca hcm2
  refine ⟨(f1.trans (f2.to (fun w => Or.inl rfl) (sel_Q hnd I O))).trans (f3.to (sel_P pre I O) fun w => Or.inl rfl), ?_⟩
  intro k hk v hv
  rw [hsz] at hk ⊢
  cases hk with
  | @cons k _ ks _ hk0 hks =>
  cases hks
  have eo : p.outAt [k] = (k / d.ob, k % d.ob) := by
    rw [outAt_none R.ns, eoutD, hto]
    exact place1 _ _ _
  have ei : ∀ j, p.inAt [j] = (j / d.ib, j % d.ib) := by
    intro j
    rw [inAt_none R.ns, R.inD]
    exact place1 _ _ _
  obtain ⟨y, u, hy, hu, rfl⟩ : ∃ y u, y < ny ∧ u < m ∧ v = y * m + u :=
    ⟨v / m, v % m, Nat.div_lt_of_lt_mul (by rw [Nat.mul_comm]; omega), Nat.mod_lt _ hm0, by rw [Nat.mul_comm]; exact (Nat.div_add_mod _ _).symm⟩
  rw [eo, hm, elt_regroup]
  refine (g3 y hy k hk0 u hu).trans ?_
  have key := g2 (y / yb) (blockLt hy yb0 pesY) [k] (index1 hk0) [y % yb, u] (index2 (block_mod hy yb0) hu)
  have el : ∀ i, (y % yb * d.n + i) * m + u = lin [(d.n, m)] [i] + lin [(block ny yb (y / yb), d.n * m), (m, 1)] [y % yb, u] := by
    intro i
    simp only [lin]
    ring
  rw [elt_eq, el]
  refine key.trans ?_
  show ∑ i ∈ Finset.range d.n, _ = ∑ i ∈ Finset.range d.n, _
  refine Finset.sum_congr rfl fun i hi => ?_
  congr 1
  have hi := Finset.mem_range.1 hi
  show cval _ _ _ (lin [(d.n, m)] [i] + _) = elt _ _ _ _ _ (p.inAt [i]) _
  rw [← el, ← elt_eq, g1 i hi y hy u hu, ei, elt_regroup]

end FFTW.Mpi
