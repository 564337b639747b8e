import Verif.Proofs.MpiRank1
import Verif.Proofs.MpiRecurse2

/-! `mpi/dft-rank1.c` -/

namespace FFTW.Mpi
open Tensor Spec RdftS

theorem radixOf_dvd {n npes : ℕ} (h : radixOf n npes ≠ 0) : radixOf n npes ∣ n := by
  unfold radixOf at h ⊢
  split
  · rename_i hc
    exact Nat.div_dvd_of_dvd (Nat.dvd_of_mod_eq_zero hc.1)
  · rename_i hc
    rw [if_neg hc] at h
    exact divisorFrom_dvd _ _ h

theorem chooseRadix_spec {n npes r m : ℕ} {bwd : Bool} (hn : 0 < n) (h : chooseRadix n npes bwd = some (r, m)) : r * m = n ∧ 1 < r ∧ 1 < m := by
  unfold chooseRadix at h
  simp only at h
  split at h
  · simp at h
  rename_i hc
  simp only [not_or] at hc
  obtain ⟨q, hq⟩ := radixOf_dvd hc.1
  have hr : 0 < radixOf n npes := Nat.pos_of_ne_zero hc.1
  have e : n / radixOf n npes = q := Nat.div_eq_of_eq_mul_right hr hq
  rw [e] at h
  generalize hR : radixOf n npes = R at *
  have hq1 : 1 < q := by
    rcases q with _ | _ | q
    · omega
    · omega
    · omega
  split at h
  · obtain ⟨rfl, rfl⟩ := Prod.mk.inj (Option.some.inj h)
    exact ⟨by rw [Nat.mul_comm]; exact hq.symm, hq1, by omega⟩
  · obtain ⟨rfl, rfl⟩ := Prod.mk.inj (Option.some.inj h)
    exact ⟨hq.symm, by omega, hq1⟩

theorem sum_range_rows (m r : ℕ) (f : ℕ → ℂ) : ∑ j ∈ Finset.range (m * r), f j = ∑ a ∈ Finset.range m, ∑ b ∈ Finset.range r, f (a * r + b) := by
  induction m with
  | zero => simp
  | succ m ih => rw [Nat.add_mul, Nat.one_mul, Finset.sum_range_add, ih, Finset.sum_range_succ]

/-- the six-step algorithm -/
theorem six_step {r m kr km : ℕ} (hr : 0 < r) (hm : 0 < m) (x : ℕ → ℂ) :
    ∑ j ∈ Finset.range (r * m), dftK () (r * m) j (kr * m + km) * x j =
      ∑ jr ∈ Finset.range r, ω r ^ (jr * kr) * (ω (r * m) ^ (jr * km) * ∑ jm ∈ Finset.range m, ω m ^ (jm * km) * x (jm * r + jr)) := by
  have e : ∑ j ∈ Finset.range (r * m), dftK () (r * m) j (kr * m + km) * x j =
      ∑ jm ∈ Finset.range m, ∑ jr ∈ Finset.range r, dftK () (r * m) (jm * r + jr) (kr * m + km) * x (jm * r + jr) := by
    rw [Nat.mul_comm r m, sum_range_rows]
  rw [e, Finset.sum_comm]
  refine Finset.sum_congr rfl fun jr _ => ?_
  rw [Finset.mul_sum, Finset.mul_sum]
  refine Finset.sum_congr rfl fun jm _ => ?_
  have h1 : dftK () (r * m) (jm * r + jr) (kr * m + km) = ω r ^ (jr * kr) * (ω (r * m) ^ (jr * km) * ω m ^ (jm * km)) := by
    show ω (r * m) ^ ((jm * r + jr) * (kr * m + km)) = _
    rw [← ω_mul_pow r m (jm * km) (by omega)]
    have : ω r ^ (jr * kr) = ω (r * m) ^ (m * (jr * kr)) := by rw [Nat.mul_comm r m, ω_mul_pow m r _ (by omega)]
    rw [this, ← pow_add, ← pow_add]
    have e2 : (jm * r + jr) * (kr * m + km) = (m * (jr * kr) + (jr * km + r * (jm * km))) + r * m * (jm * kr) := by ring
    rw [e2, pow_add, pow_mul (ω (r * m)) (r * m), ω_pow_self _ (by positivity), one_pow, mul_one]
  rw [h1]
  ring

variable [CLib]
variable {p : MDftP} {fl : Flags}

/-- between two of the arrays -/
theorem MCompat.two {comm : Comm} {space : ℕ → ℕ} {inpl : Prop} {I O : ℕ → Ptr} {st : Dist} (hc : MCompat comm space inpl I O st) (a b : Bool) :
    MCompat comm space (a = b ∨ inpl) (sel a I O) (sel b I O) st := by
  cases a with
  | true =>
    cases b with
    | true => exact ⟨hc.blkO, hc.blkO, fun _ w _ => rfl, fun hn => absurd (Or.inl rfl) hn⟩
    | false => have := hc.symm; exact ⟨this.blkI, this.blkO, fun hs w hw => this.same (by simpa using hs) w hw, fun hs w hw => this.disj (by simpa using hs) w hw⟩
  | false =>
    cases b with
    | false => exact ⟨hc.blkI, hc.blkI, fun _ w _ => rfl, fun hn => absurd (Or.inl rfl) hn⟩
    | true => have := hc; exact ⟨this.blkI, this.blkO, fun hs w hw => this.same (by simpa using hs) w hw, fun hs w hw => this.disj (by simpa using hs) w hw⟩

theorem MApart.two {comm : Comm} {space : ℕ → ℕ} {inpl : Prop} {I O : ℕ → Ptr} (hc : MApart comm space inpl I O) (a b : Bool) :
    MApart comm space (a = b ∨ inpl) (sel a I O) (sel b I O) := by
  cases a with
  | true =>
    cases b with
    | true => exact ⟨fun _ w _ => rfl, fun hn => absurd (Or.inl rfl) hn, fun hn => absurd (Or.inl rfl) hn⟩
    | false => have := hc.symm; exact ⟨fun hs w hw => this.same (by simpa using hs) w hw, fun hs w hw => this.disj (by simpa using hs) w hw, fun hs w hw => this.ne (by simpa using hs) w hw⟩
  | false =>
    cases b with
    | false => exact ⟨fun _ w _ => rfl, fun hn => absurd (Or.inl rfl) hn, fun hn => absurd (Or.inl rfl) hn⟩
    | true => have := hc; exact ⟨fun hs w hw => this.same (by simpa using hs) w hw, fun hs w hw => this.disj (by simpa using hs) w hw, fun hs w hw => this.ne (by simpa using hs) w hw⟩

/-- the child problem: transform along the distributed dimension -/
abbrev childP (p : MDftP) (mp rp : ℕ) (I1 : ℕ → Ptr) : MDftP :=
  { sz := [⟨mp, defaultBlock mp p.comm.length, defaultBlock mp p.comm.length⟩], vn := rp * p.vn, I := I1, O := p.O, comm := p.comm, bwd := p.bwd, flags := { bigvecOnly := true }, space := p.space }

theorem defaultBlock_le_self {n k : ℕ} (hn : 0 < n) (hk : 0 < k) : defaultBlock n k ≤ n := by
  unfold defaultBlock
  refine Nat.div_le_of_le_mul ?_
  have : (k - 1) * 1 ≤ (k - 1) * n := Nat.mul_le_mul_left _ hn
  have e : k * n = (k - 1) * n + n := by
    conv_lhs => rw [show k = (k - 1) + 1 by omega, Nat.add_mul, Nat.one_mul]
  omega

theorem numBlocks_default {n k : ℕ} (hn : 0 < n) (hk : 0 < k) : numBlocks n (defaultBlock n k) ≤ k := by
  have h0 := defaultBlock_pos hn hk
  have h1 := defaultBlock_le (n := n) hk
  unfold numBlocks
  rw [Nat.div_le_iff_le_mul_add_pred h0]
  have : defaultBlock n k * k = k * defaultBlock n k := Nat.mul_comm _ _
  omega

theorem child_pos {n k : ℕ} (hn : 1 < n) (hk : 0 < k) : 1 < n ∧ 0 < defaultBlock n k ∧ defaultBlock n k ≤ n ∧ 0 < defaultBlock n k ∧ defaultBlock n k ≤ n :=
  ⟨hn, defaultBlock_pos (by omega) hk, defaultBlock_le_self (by omega) hk, defaultBlock_pos (by omega) hk, defaultBlock_le_self (by omega) hk⟩

theorem child_ok (h : p.Ok fl) (hl : 0 < p.comm.length) {mp rp : ℕ} (hmp : 1 < mp) (hrp : 1 < rp) (pre : Bool)
    (h1 : ∀ me < p.comm.length, block mp (defaultBlock mp p.comm.length) me * rp * p.vn * 2 ≤ p.space (p.comm.at me))
    (h2 : ∀ me < p.comm.length, mp * block (rp * p.vn) (defaultBlock (rp * p.vn) p.comm.length) me * 2 ≤ p.space (p.comm.at me)) : (childP p mp rp (sel pre p.I p.O)).Ok fl where
  nodup := h.nodup
  rnk := by simp
  vnpos := Nat.mul_pos (by omega) h.vnpos
  pos := by intro d hd; obtain rfl := List.mem_singleton.1 hd; exact child_pos hmp hl
  pes := by simpa using numBlocks_default (show 0 < mp by omega) hl
  pesOut := by simpa using numBlocks_default (show 0 < mp by omega) hl
  roomIn r hr := by
    rw [inSize_none (six_vec rfl (Or.inr rfl))]
    show localSize ((mp, _) :: whole []) r * _ * 2 ≤ _
    rw [localSize_cons (by simp), List.prod_nil, Nat.mul_one]
    calc _ = block mp (defaultBlock mp p.comm.length) r * rp * p.vn * 2 := by ring
      _ ≤ _ := h1 r hr
  roomOut r hr := by
    rw [outSize_none (six_vec rfl (Or.inr rfl))]
    show localSize ((mp, _) :: whole []) r * _ * 2 ≤ _
    rw [localSize_cons (by simp), List.prod_nil, Nat.mul_one]
    calc _ = block mp (defaultBlock mp p.comm.length) r * rp * p.vn * 2 := by ring
      _ ≤ _ := h1 r hr
  roomMid := by
    intro _ _ d l' e _ _ r hr
    obtain ⟨rfl, rfl⟩ := List.cons.inj e
    have := h2 r hr
    simpa using this
  roomSix r m h := by rw [six_vec rfl (Or.inr rfl)] at h; simp at h
  clear h := by simpa [MFlags] using h.1
  apart := by
    show MApart _ _ (sel pre p.I p.O (p.comm.at 0) = p.O (p.comm.at 0)) (sel pre p.I p.O) p.O
    rw [last_inpl h pre hl]
    exact h.apart.last pre

/-- its result -/
theorem child_run {nd : Bool} {mp rp : ℕ} {I1 : ℕ → Ptr} {f : MPlan} (h : DOK nd (childP p mp rp I1) f) {I O : ℕ → Ptr} {st : Dist}
    (hc : MCompat p.comm p.space (I1 (p.comm.at 0) = p.O (p.comm.at 0)) I O st) :
    MFrame p.comm p.space nd I O st (f I O st) ∧ ∀ k < mp, ∀ i < rp, ∀ v < p.vn,
      elt p.bwd p.vn p.comm O (f I O st) (cell rp (defaultBlock mp p.comm.length) k i) v =
        ∑ j ∈ Finset.range mp, ω mp ^ (j * k) * elt p.bwd p.vn p.comm I st (cell rp (defaultBlock mp p.comm.length) j i) v := by
  obtain ⟨h1, h2⟩ := h I O st hc
  refine ⟨h1, fun k hk i hi v hv => ?_⟩
  have ns : (childP p mp rp I1).sixStep = none := six_vec rfl (Or.inr rfl)
  have key := h2 [k] (index1 hk) (i * p.vn + v) (lin_lt hi hv)
  simp only [outAt_none ns, inAt_none ns, MDftP.outD, MDftP.inD, Bool.false_eq_true, if_false, List.map_cons, List.map_nil, place1] at key
  rw [elt_regroup] at key
  refine key.trans ?_
  show ∑ i ∈ Finset.range mp, _ = ∑ i ∈ Finset.range mp, _
  refine Finset.sum_congr rfl fun j _ => ?_
  congr 1
  show elt _ _ _ _ _ (place [(mp, _)] [j]) _ = _
  rw [place1, elt_regroup]
  rfl

theorem loop_frame {N : ℕ → ℕ} {w : ℕ} {nd : Bool} {P Q : ℕ → Ptr} {st : Dist} (hnd : p.comm.Nodup) (hr : ∀ me < p.comm.length, N me * w * p.vn * 2 ≤ p.space (p.comm.at me))
    {F : ℕ → State → State} (h : ∀ me < p.comm.length, Frame (st (p.comm.at me)) (F me (st (p.comm.at me))) (PW nd (P (p.comm.at me)) (Q (p.comm.at me)) (2 * (N me * (w * p.vn))))) :
    MFrame p.comm p.space nd P Q st (p.comm.run F st) := by
  refine mframe (fun w hw => run_other hw _ _) fun me hme => ?_
  rw [run_at hnd hme]
  refine (h me hme).mono fun q _ hq => PW.mono hq ?_
  calc _ = N me * w * p.vn * 2 := by ring
    _ ≤ _ := hr me hme

theorem tw_lt {m r mb me : ℕ} : ∀ x < block m mb me, ∀ im < r, (mb * me + x) * im < m * r := by
  intro x hx im him
  obtain ⟨h1, -, -⟩ := block_global hx
  rw [Nat.mul_comm mb me]
  calc (me * mb + x) * im ≤ (me * mb + x) * r := Nat.mul_le_mul_left _ (by omega)
    _ < m * r := Nat.mul_lt_mul_of_pos_right h1 (by omega)

section Loops
variable {cexp : ℕ → ℤ → ℝ × ℝ} (hc : ExactCexp cexp) {nd : Bool} {r m n mb : ℕ} (hn : m * r = n) (hmb : 0 < mb) (hpes : m ≤ p.comm.length * mb) (hnp : p.comm.Nodup)
  (hr : ∀ me < p.comm.length, block m mb me * r * p.vn * 2 ≤ p.space (p.comm.at me)) {P0 Q0 : ℕ → Ptr} {inpl : Prop} (h0 : MApart p.comm p.space inpl P0 Q0)
  {P Q : ℕ → Ptr} {st : Dist} (hcm : MCompat p.comm p.space inpl P Q st) {c : ℕ → Plan}
  (h : ∀ me < p.comm.length, ∀ x, some (dftPr p.bwd [eqDim r (p.vn * 2)] [eqDim p.vn 2] (P0 (p.comm.at me)) (Q0 (p.comm.at me))) = some x → FFTW.Sound nd x (c me))
include hc hn hmb hpes hnp hr h0 hcm h

/-- twiddle factors and local transforms -/
theorem first_stage (hnd : nd = true → ∀ w, P w = Q w) :
    let st' := p.comm.run (fun me => loopFirst cexp p.bwd n r p.vn (mb * me) (block m mb me) (c me) (P (p.comm.at me)) (Q (p.comm.at me))) st
    MFrame p.comm p.space nd P Q st st' ∧ ∀ i < m, ∀ k < r, ∀ v < p.vn, elt p.bwd p.vn p.comm Q st' (cell r mb i k) v =
      ∑ j ∈ Finset.range r, ω r ^ (j * k) * (ω n ^ (i * j) * elt p.bwd p.vn p.comm P st (cell r mb i j) v) := by
  intro st'
  have key : ∀ me < p.comm.length, _ := fun me hme => loopFirst_spec hc (nd := nd) (bwd := p.bwd) (n := n) (r := r) (vn := p.vn) (xmin := mb * me) (N := block m mb me)
    (by rw [← hn]; exact tw_lt) (h me hme _ rfl) (hcm.blkI _ (at_mem hme)) (hcm.blkO _ (at_mem hme))
    (fun e => hcm.same ((h0.iff (at_mem hme)).1 e) _ (at_mem hme))
    (fun e => Far.mono (hcm.disj (fun hs => e ((h0.iff (at_mem hme)).2 hs)) _ (at_mem hme)) (by
      calc _ = block m mb me * r * p.vn * 2 := by ring
        _ ≤ _ := hr me hme)) (fun e => hnd e _)
  refine ⟨loop_frame hnp hr fun me hme => (key me hme).1, fun i hi k hk v hv => ?_⟩
  have hme := blockLt hi hmb hpes
  have := (key _ hme).2 _ (block_mod hi hmb) k hk v hv
  unfold cell
  rw [elt_eq]
  show cval _ (p.comm.run _ st _).mem _ _ = _
  rw [run_at hnp hme, show (i % mb * r + k) * p.vn + v = i % mb * (r * p.vn) + (k * p.vn + v) by ring]
  refine this.trans (Finset.sum_congr rfl fun j _ => ?_)
  rw [elt_eq, Nat.div_add_mod, show (i % mb * r + j) * p.vn + v = i % mb * (r * p.vn) + (j * p.vn + v) by ring]

theorem last_stage :
    let st' := p.comm.run (fun me => loopLast cexp p.bwd n r p.vn (mb * me) (block m mb me) (c me) (P (p.comm.at me)) (Q (p.comm.at me))) st
    MFrame p.comm p.space nd P Q st st' ∧ ∀ i < m, ∀ k < r, ∀ v < p.vn, elt p.bwd p.vn p.comm Q st' (cell r mb i k) v =
      ω n ^ (i * k) * ∑ j ∈ Finset.range r, ω r ^ (j * k) * elt p.bwd p.vn p.comm P st (cell r mb i j) v := by
  intro st'
  have key : ∀ me < p.comm.length, _ := fun me hme => loopLast_spec hc (nd := nd) (bwd := p.bwd) (n := n) (r := r) (vn := p.vn) (xmin := mb * me) (N := block m mb me)
    (by rw [← hn]; exact tw_lt) (h me hme _ rfl) (hcm.blkI _ (at_mem hme)) (hcm.blkO _ (at_mem hme))
    (fun e => hcm.same ((h0.iff (at_mem hme)).1 e) _ (at_mem hme))
    (fun e => Far.mono (hcm.disj (fun hs => e ((h0.iff (at_mem hme)).2 hs)) _ (at_mem hme)) (by
      calc _ = block m mb me * r * p.vn * 2 := by ring
        _ ≤ _ := hr me hme))
  refine ⟨loop_frame hnp hr fun me hme => (key me hme).1, fun i hi k hk v hv => ?_⟩
  have hme := blockLt hi hmb hpes
  have := (key _ hme).2 _ (block_mod hi hmb) k hk v hv
  unfold cell
  rw [elt_eq]
  show cval _ (p.comm.run _ st _).mem _ _ = _
  rw [run_at hnp hme, show (i % mb * r + k) * p.vn + v = i % mb * (r * p.vn) + (k * p.vn + v) by ring]
  refine this.trans ?_
  rw [Nat.div_add_mod]
  congr 1
  refine Finset.sum_congr rfl fun j _ => ?_
  rw [elt_eq, show (i % mb * r + j) * p.vn + v = i % mb * (r * p.vn) + (j * p.vn + v) by ring]
end Loops

theorem loop_kosher {r : ℕ} (hr0 : 0 < r) (hm : ∀ me < p.comm.length, r * p.vn * 2 ≤ p.space (p.comm.at me)) {P0 Q0 : ℕ → Ptr} {inpl : Prop} (h0 : MApart p.comm p.space inpl P0 Q0) :
    ∀ me < p.comm.length, ∀ x, some (dftPr p.bwd [eqDim r (p.vn * 2)] [eqDim p.vn 2] (P0 (p.comm.at me)) (Q0 (p.comm.at me))) = some x → Kosher x :=
  stage_kosher (a := fun _ => [(r, p.vn)]) (b := fun _ => [(p.vn, 1)]) (fun _ _ => fits_row r p.vn) (fun _ _ => by simpa using hr0) (fun me hme => hm me hme) h0

theorem rank1_sound {cexp : ℕ → ℤ → ℝ × ℝ} (hc : ExactCexp cexp) (first preserve : Bool) : (dftRank1 cexp first preserve).Sound := by
  intro pr fl hk
  cases pr with
  | transpose p => exact fun f hf => by simp at hf
  | rdft p => exact fun f hf => by simp at hf
  | dft p =>
  have h : p.Ok fl := hk
  show (rank1Mk cexp first preserve p fl).Good fl _
  unfold rank1Mk
  have none_ : ∀ f, (none : Option MPlan) = some f → MSound fl.nd (.dft p) f := fun f hf => by simp at hf
  rcases hsz : p.sz with _ | ⟨d, _ | ⟨d1, rest⟩⟩
  · exact none_
  swap
  · exact none_
  simp only
  by_cases ha : (p.flags.onlyScrambled && preserveOk preserve p fl && (!p.flags.scrambledIn || !first) && (!p.flags.scrambledOut || first) && notSlow p fl &&
        (decide (p.vn < p.comm.length) || decide (p.flags ≠ {}))) = true
  swap
  · rw [if_pos (by rw [Bool.not_eq_true] at ha; rw [ha]; rfl)]
    exact none_
  rw [if_neg (by rw [ha]; decide)]
  simp only [Bool.and_eq_true, decide_eq_true_eq, Bool.or_eq_true, Bool.not_eq_true'] at ha
  obtain ⟨⟨⟨⟨⟨hos, hpre⟩, hin⟩, hout⟩, hsl⟩, hbig⟩ := ha
  rcases hrad : chooseRadix d.n p.comm.length p.bwd with _ | ⟨r, m⟩
  · exact none_
  simp only
  have hd := h.pos d (by rw [hsz]; simp)
  obtain ⟨hrm, r1, m1⟩ := chooseRadix_spec (by omega) hrad
  have hlen : 0 < p.comm.length := by
    by_contra hc
    have h0 : p.comm.length = 0 := by omega
    have := h.pes
    rw [hsz, h0] at this
    simp at this
    have h1 := le_numBlocks hd.2.1 (le_of_eq this)
    omega
  have six : p.sixStep = some (r, m) := by
    have hnot : ¬ (p.flags = {} ∧ d.ib = d.n ∧ d.ob = d.n) := by
      rintro ⟨f1, f2, f3⟩
      have op : p.oneProcess := ⟨f1, by rw [hsz]; simp [f2, f3]⟩
      have := h.clear op (slow_ok h hsl op) d hsz (by rcases hbig with h | h; exact h; exact absurd f1 h)
      rw [hrad] at this
      simp at this
    unfold MDftP.sixStep
    rw [hsz]
    simp only
    rw [if_pos ⟨hos, hbig, hnot⟩]
    exact hrad
  set rb := defaultBlock r p.comm.length with erb
  set mb := defaultBlock m p.comm.length with emb
  set pre := (preserve || fl.nd) with epre
  have hnd : pre = false → fl.nd = false := fun e => by rw [epre] at e; simpa using (Bool.or_eq_false_iff.1 e).2
  set plain := decide (p.flags = {}) with eplain
  have rooms := h.roomSix r m six (by rcases hin with h | h; exact Or.inl h; rcases hout with h' | h'; exact Or.inr h'; rw [h] at h'; simp at h')
  have r0 : 0 < r := by omega
  have m0 : 0 < m := by omega
  have rb0 : 0 < rb := defaultBlock_pos r0 hlen
  have mb0 : 0 < mb := defaultBlock_pos m0 hlen
  have pesR : r ≤ p.comm.length * rb := defaultBlock_le hlen
  have pesM : m ≤ p.comm.length * mb := defaultBlock_le hlen
  have hv0 := h.vnpos
  cases first with
  | true =>
    have hsi : p.flags.scrambledIn = false := by simpa using hin
    have hplain : plain = !p.flags.scrambledOut := by
      rw [eplain]
      unfold MFlags.onlyScrambled at hos
      rcases hf : p.flags with ⟨a, b, c, d, e⟩
      rw [hf] at hos hsi
      simp only [Bool.and_eq_true, Bool.not_eq_true'] at hos hsi
      obtain ⟨⟨h1, h2⟩, h3⟩ := hos
      subst h1 h2 h3 hsi
      cases b <;> rfl
    have roomC : ∀ me < p.comm.length, m * block (r * p.vn) (defaultBlock (r * p.vn) p.comm.length) me * 2 ≤ p.space (p.comm.at me) := fun me hme => ((rooms me hme).2.2.1 hsi).1
    have roomR : ∀ me < p.comm.length, r * p.vn * 2 ≤ p.space (p.comm.at me) := fun me hme => ((rooms me hme).2.2.1 hsi).2
    have roomM : ∀ me < p.comm.length, block m mb me * r * p.vn * 2 ≤ p.space (p.comm.at me) := fun me hme => (rooms me hme).1
    have cok : (childP p m r p.I).Ok fl := child_ok h hlen m1 r1 false roomM roomC
    simp only [Bool.true_or, if_true, Bool.true_and]
    rw [mkDft_single (child_pos m1 hlen)]
    set q := (pre || !plain) with eq
    have hq : ∀ I O : ℕ → Ptr, (if q = true then O else I) = sel q I O := fun _ _ => rfl
    have ap2 : MApart p.comm p.space (true = q ∨ p.inpl) (sel true p.I p.O) (sel q p.I p.O) := h.apart.two true q
    refine good_needM none_ (by rw [modify_default]; exact cok) fun ddft hdd => good_needLoc none_ (loop_kosher r0 roomR ap2) fun dft hdf => ?_
    rw [modify_default] at hdd hdf
    have hnq : fl.nd = true → q = true := fun e => by
      have : pre = true := by by_contra hc; rw [hnd (by simpa using hc)] at e; simp at e
      rw [eq, this]; rfl
    have ei : ∀ jm < m, ∀ jr < r, p.inAt [jm * r + jr] = cell r mb jm jr := by
      intro jm _ jr hjr
      unfold MDftP.inAt
      rw [six]
      simp only [hsi, Bool.false_eq_true, if_false]
      rw [Nat.add_comm, Nat.add_mul_div_right _ _ r0, Nat.div_eq_of_lt hjr, Nat.add_mul_mod_self_right, Nat.mod_eq_of_lt hjr, Nat.zero_add]
    -- everything up to the last transposition
    have body : ∀ (I O : ℕ → Ptr) (st : Dist), MCompat p.comm p.space p.inpl I O st →
        let st2 := p.comm.run (fun me => loopFirst cexp p.bwd (r * m) r p.vn (mb * me) (block m mb me) (dft me) (O (p.comm.at me)) (sel q I O (p.comm.at me))) (ddft I O st)
        MFrame p.comm p.space fl.nd I O st st2 ∧ ∀ kr < r, ∀ km < m, ∀ v < p.vn, elt p.bwd p.vn p.comm (sel q I O) st2 (cell r mb km kr) v =
          dftSum [d.n] [kr * m + km] fun j => elt p.bwd p.vn p.comm I st (p.inAt j) v := by
      intro I O st hcm st2
      obtain ⟨f1, g1⟩ := child_run hdd hcm
      have hcm1 : MCompat p.comm p.space p.inpl I O (ddft I O st) := hcm.later fun w hw => (f1.frame w hw).next
      obtain ⟨f2, g2⟩ := first_stage hc (nd := fl.nd) (n := r * m) (by ring) mb0 pesM h.nodup roomM ap2 (hcm1.two true q) hdf (fun e w => by rw [hnq e])
      refine ⟨f1.trans (f2.to (fun w => Or.inl rfl) (sel_Q (fun e => ?_) I O)), ?_⟩
      · by_contra hc
        rw [hnq (by simpa using hc)] at e
        simp at e
      intro kr hkr km hkm v hv
      refine (g2 km hkm kr hkr v hv).trans ?_
      show _ = ∑ j ∈ Finset.range d.n, dftK () d.n j (kr * m + km) * elt p.bwd p.vn p.comm I st (p.inAt [j]) v
      rw [← hrm, six_step r0 m0]
      refine Finset.sum_congr rfl fun jr hjr => ?_
      have hjr := Finset.mem_range.1 hjr
      rw [Nat.mul_comm km jr]
      congr 2
      refine (g1 km hkm jr hjr v hv).trans ?_
      refine Finset.sum_congr rfl fun jm hjm => ?_
      rw [ei jm (Finset.mem_range.1 hjm) jr hjr]
    have split : ∀ k, k < d.n → k = k / m * m + k % m ∧ k / m < r ∧ k % m < m := fun k hk =>
      ⟨by rw [Nat.mul_comm]; exact (Nat.div_add_mod _ _).symm, Nat.div_lt_of_lt_mul (by rw [Nat.mul_comm, hrm]; exact hk), Nat.mod_lt _ m0⟩
    by_cases hpl : plain = true
    · rw [if_pos hpl]
      have eqp : q = pre := by rw [eq, hpl]; simp
      have einp := last_inpl h pre hlen
      refine good_needM none_ ?_ fun t ht f hf' => ?_
      · refine mkTrans_ok h.nodup m0 r0 (by omega) mb0 rb0 pesM pesR (fun me hme => ?_) (fun me hme => ?_) ?_
        · calc _ = block m mb me * r * p.vn * 2 := by ring
            _ ≤ _ := roomM me hme
        · calc _ = block r rb me * m * p.vn * 2 := by ring
            _ ≤ _ := (rooms me hme).2.1
        · show MApart _ _ (sel pre p.I p.O (p.comm.at 0) = p.O (p.comm.at 0)) (sel pre p.I p.O) p.O
          rw [einp]
          exact h.apart.last pre
      obtain rfl := Option.some.inj hf'
      rw [modify_default] at ht
      intro I O st hcm
      obtain ⟨f1, g1⟩ := body I O st hcm
      simp only [Option.isNone_some, Bool.or_false]
      rw [eqp] at f1 g1
      have hcm2 : MCompat p.comm p.space (sel pre p.I p.O (p.comm.at 0) = p.O (p.comm.at 0)) (sel pre I O) O
          (p.comm.run (fun me => loopFirst cexp p.bwd (r * m) r p.vn (mb * me) (block m mb me) (dft me) (O (p.comm.at me)) (sel pre I O (p.comm.at me))) (ddft I O st)) := by
        rw [einp]
        exact (hcm.later fun w hw => (f1.frame w hw).next).last pre
      obtain ⟨f3, g3⟩ := tok_elt (bwd := p.bwd) ht hcm2
      refine ⟨f1.trans (f3.to (sel_P pre I O) fun w => Or.inl rfl), ?_⟩
      intro k hk v hv
      rw [hsz] at hk ⊢
      cases hk with
      | @cons k _ ks _ hk0 hks =>
      cases hks
      obtain ⟨ek, hkr, hkm⟩ := split k hk0
      have eo : p.outAt [k] = cell m rb (k / m) (k % m) := by
        unfold MDftP.outAt
        rw [six]
        have : p.flags.scrambledOut = false := by rw [hpl] at hplain; simpa using hplain
        simp only [this, Bool.false_eq_true, if_false]
        rfl
      rw [eo]
      refine (g3 (k % m) hkm (k / m) hkr v hv).trans ?_
      refine (g1 _ hkr _ hkm v hv).trans ?_
      rw [← ek]
      rfl
    · rw [if_neg hpl]
      have eqt : q = true := by rw [eq]; simp [hpl]
      intro f hf'
      obtain rfl := Option.some.inj hf'
      intro I O st hcm
      obtain ⟨f1, g1⟩ := body I O st hcm
      simp only [Option.isNone_none, Bool.or_true, if_true]
      rw [eqt] at f1 g1
      refine ⟨f1, ?_⟩
      intro k hk v hv
      rw [hsz] at hk ⊢
      cases hk with
      | @cons k _ ks _ hk0 hks =>
      cases hks
      obtain ⟨ek, hkr, hkm⟩ := split k hk0
      have eo : p.outAt [k] = cell r mb (k % m) (k / m) := by
        unfold MDftP.outAt
        rw [six]
        have : p.flags.scrambledOut = true := by
          by_contra hc
          rw [Bool.not_eq_true] at hc
          rw [hc] at hplain
          exact hpl hplain
        simp only [this, if_true]
        rfl
      rw [eo]
      refine (g1 _ hkr _ hkm v hv).trans ?_
      rw [← ek]
      rfl
  | false =>
    have hso : p.flags.scrambledOut = false := by simpa using hout
    have hplain : plain = !p.flags.scrambledIn := by
      rw [eplain]
      unfold MFlags.onlyScrambled at hos
      rcases hf : p.flags with ⟨a, b, c, d, e⟩
      rw [hf] at hos hso
      simp only [Bool.and_eq_true, Bool.not_eq_true'] at hos hso
      obtain ⟨⟨h1, h2⟩, h3⟩ := hos
      subst h1 h2 h3 hso
      cases a <;> rfl
    have roomC : ∀ me < p.comm.length, r * block (m * p.vn) (defaultBlock (m * p.vn) p.comm.length) me * 2 ≤ p.space (p.comm.at me) := fun me hme => ((rooms me hme).2.2.2 hso).1
    have roomM : ∀ me < p.comm.length, m * p.vn * 2 ≤ p.space (p.comm.at me) := fun me hme => ((rooms me hme).2.2.2 hso).2
    have roomR : ∀ me < p.comm.length, block r rb me * m * p.vn * 2 ≤ p.space (p.comm.at me) := fun me hme => (rooms me hme).2.1
    have cok : (childP p r m (sel pre p.I p.O)).Ok fl := child_ok h hlen r1 m1 pre roomR roomC
    have e1 : (if (!pre) = true then p.I else p.O) = sel pre p.I p.O := by cases pre <;> rfl
    simp only [Bool.false_or, Bool.false_eq_true, if_false, Bool.false_and, Bool.or_false]
    rw [mkDft_single (child_pos r1 hlen), e1]
    have ap2 : MApart p.comm p.space (plain = pre ∨ p.inpl) (sel plain p.I p.O) (sel pre p.I p.O) := h.apart.two plain pre
    have einp := last_inpl h pre hlen
    refine good_needM none_ (by rw [modify_default]; exact cok) fun ddft hdd => good_needLoc none_ (loop_kosher m0 roomM ap2) fun dft hdf => ?_
    rw [modify_default] at hdd hdf
    -- everything after the first transposition
    have body : ∀ (I O : ℕ → Ptr) (st : Dist), MCompat p.comm p.space p.inpl I O st →
        let st1 := p.comm.run (fun me => loopLast cexp p.bwd (r * m) m p.vn (rb * me) (block r rb me) (dft me) (sel plain I O (p.comm.at me)) (sel pre I O (p.comm.at me))) st
        MFrame p.comm p.space fl.nd I O st (ddft (sel pre I O) O st1) ∧ ∀ kr < r, ∀ km < m, ∀ v < p.vn, elt p.bwd p.vn p.comm O (ddft (sel pre I O) O st1) (cell m rb kr km) v =
          ∑ jr ∈ Finset.range r, ω r ^ (jr * kr) * (ω (r * m) ^ (jr * km) * ∑ jm ∈ Finset.range m, ω m ^ (jm * km) * elt p.bwd p.vn p.comm (sel plain I O) st (cell m rb jr jm) v) := by
      intro I O st hcm st1
      obtain ⟨f1, g1⟩ := last_stage hc (nd := fl.nd) (n := r * m) rfl rb0 pesR h.nodup roomR ap2 (hcm.two plain pre) hdf
      have hcm1 : MCompat p.comm p.space (sel pre p.I p.O (p.comm.at 0) = p.O (p.comm.at 0)) (sel pre I O) O st1 := by
        rw [einp]
        exact (hcm.later fun w hw => (f1.frame w hw).next).last pre
      obtain ⟨f2, g2⟩ := child_run hdd hcm1
      refine ⟨(f1.to (sel_P plain I O) (sel_Q hnd I O)).trans (f2.to (sel_P pre I O) fun w => Or.inl rfl), ?_⟩
      intro kr hkr km hkm v hv
      refine (g2 kr hkr km hkm v hv).trans (Finset.sum_congr rfl fun jr hjr => ?_)
      congr 1
      exact g1 jr (Finset.mem_range.1 hjr) km hkm v hv
    have ei : plain = false → ∀ jm < m, ∀ jr < r, p.inAt [jm * r + jr] = cell m rb jr jm := by
      intro hpl jm _ jr hjr
      have : p.flags.scrambledIn = true := by rw [hpl] at hplain; simpa using hplain.symm
      unfold MDftP.inAt
      rw [six]
      simp only [this, if_true]
      rw [Nat.add_comm, Nat.add_mul_div_right _ _ r0, Nat.div_eq_of_lt hjr, Nat.add_mul_mod_self_right, Nat.mod_eq_of_lt hjr, Nat.zero_add]
    have ei2 : plain = true → ∀ jm < m, ∀ jr < r, p.inAt [jm * r + jr] = cell r mb jm jr := by
      intro hpl jm _ jr hjr
      have : p.flags.scrambledIn = false := by rw [hpl] at hplain; simpa using hplain
      unfold MDftP.inAt
      rw [six]
      simp only [this, Bool.false_eq_true, if_false]
      rw [Nat.add_comm, Nat.add_mul_div_right _ _ r0, Nat.div_eq_of_lt hjr, Nat.add_mul_mod_self_right, Nat.mod_eq_of_lt hjr, Nat.zero_add]
    have eo : ∀ k, p.outAt [k] = cell m rb (k / m) (k % m) := by
      intro k
      unfold MDftP.outAt
      rw [six]
      simp only [hso, Bool.false_eq_true, if_false]
      rfl
    have split : ∀ k, k < d.n → k = k / m * m + k % m ∧ k / m < r ∧ k % m < m := fun k hk =>
      ⟨by rw [Nat.mul_comm]; exact (Nat.div_add_mod _ _).symm, Nat.div_lt_of_lt_mul (by rw [Nat.mul_comm, hrm]; exact hk), Nat.mod_lt _ m0⟩
    -- the sum
    have fin : ∀ (P I : ℕ → Ptr) (st0 st1 : Dist) (v k : ℕ), k < d.n → (∀ jm < m, ∀ jr < r, elt p.bwd p.vn p.comm P st1 (cell m rb jr jm) v = elt p.bwd p.vn p.comm I st0 (p.inAt [jm * r + jr]) v) →
        ∑ jr ∈ Finset.range r, ω r ^ (jr * (k / m)) * (ω (r * m) ^ (jr * (k % m)) * ∑ jm ∈ Finset.range m, ω m ^ (jm * (k % m)) * elt p.bwd p.vn p.comm P st1 (cell m rb jr jm) v) =
          dftSum [d.n] [k] fun j => elt p.bwd p.vn p.comm I st0 (p.inAt j) v := by
      intro P I st0 st1 v k hk hx
      obtain ⟨ek, hkr, hkm⟩ := split k hk
      show _ = ∑ j ∈ Finset.range d.n, dftK () d.n j k * elt p.bwd p.vn p.comm I st0 (p.inAt [j]) v
      conv_rhs => rw [ek, ← hrm, six_step r0 m0 fun j => elt p.bwd p.vn p.comm I st0 (p.inAt [j]) v]
      refine Finset.sum_congr rfl fun jr hjr => ?_
      congr 2
      exact Finset.sum_congr rfl fun jm hjm => by rw [hx jm (Finset.mem_range.1 hjm) jr (Finset.mem_range.1 hjr)]
    by_cases hpl : plain = true
    · rw [if_pos hpl]
      refine good_needM none_ ?_ fun t ht f hf' => ?_
      · refine mkTrans_ok h.nodup m0 r0 (by omega) mb0 rb0 pesM pesR (fun me hme => ?_) (fun me hme => ?_) h.apart
        · calc _ = block m mb me * r * p.vn * 2 := by ring
            _ ≤ _ := (rooms me hme).1
        · calc _ = block r rb me * m * p.vn * 2 := by ring
            _ ≤ _ := roomR me hme
      obtain rfl := Option.some.inj hf'
      rw [modify_default] at ht
      intro I O st hcm
      obtain ⟨f1, g1⟩ := tok_elt (bwd := p.bwd) ht hcm
      simp only [Option.isSome_some, if_true]
      have hcm1 : MCompat p.comm p.space p.inpl I O (t I O st) := hcm.later fun w hw => (f1.frame w hw).next
      obtain ⟨f2, g2⟩ := body I O (t I O st) hcm1
      rw [hpl] at f2 g2
      refine ⟨f1.trans f2, ?_⟩
      intro k hk v hv
      rw [hsz] at hk ⊢
      cases hk with
      | @cons k _ ks _ hk0 hks =>
      cases hks
      obtain ⟨ek, hkr, hkm⟩ := split k hk0
      rw [eo]
      refine (g2 _ hkr _ hkm v hv).trans (fin _ _ _ _ v k hk0 fun jm hjm jr hjr => ?_)
      rw [ei2 hpl jm hjm jr hjr]
      exact g1 jm hjm jr hjr v hv
    · rw [if_neg hpl]
      have hpf : plain = false := by simpa using hpl
      intro f hf'
      obtain rfl := Option.some.inj hf'
      intro I O st hcm
      simp only [Option.isSome_none, Bool.false_eq_true, if_false]
      obtain ⟨f2, g2⟩ := body I O st hcm
      rw [hpf] at f2 g2
      refine ⟨f2, ?_⟩
      intro k hk v hv
      rw [hsz] at hk ⊢
      cases hk with
      | @cons k _ ks _ hk0 hks =>
      cases hks
      obtain ⟨ek, hkr, hkm⟩ := split k hk0
      rw [eo]
      refine (g2 _ hkr _ hkm v hv).trans (fin _ _ _ _ v k hk0 fun jm hjm jr hjr => ?_)
      rw [ei hpf jm hjm jr hjr]
      rfl

end FFTW.Mpi
