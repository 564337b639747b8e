import Verif.Proofs.MpiRecurse2

/-! `mpi/transpose-recurse.c` is sound -/

namespace FFTW.Mpi
open Tensor Spec RdftS
variable [CLib]

/-- all groups run their plans -/
theorem groups_ok {nd : Bool} {n : ℕ} {T : ℕ → TransP} {has : ℕ → Bool} {f : ℕ → MPlan} {S R : ℕ → Ptr} {st : Dist} {space : ℕ → ℕ} {g : ℕ → Comm}
    (hsp : ∀ x, (T x).space = space) (hg : ∀ x, (T x).comm = g x)
    (hd : ∀ x < n, ∀ y < n, x ≠ y → ∀ w ∈ g x, w ∉ g y)
    (hT : ∀ x < n, has x = true → TOK nd (T x) (f x))
    (hc : ∀ x < n, has x = true → MCompat (g x) space (T x).inpl S R st)
    (hb : ∀ x < n, has x = true → 0 < (T x).block ∧ 0 < (T x).tblock ∧ (T x).nx ≤ (g x).length * (T x).block ∧ (T x).ny ≤ (g x).length * (T x).tblock) :
    let st' := runGroups n (fun x st => if has x = true then f x S R st else st) st
    (∀ w, Frame (st w) (st' w) (PW nd (S w) (R w) (space w))) ∧ (∀ w, (∀ x < n, w ∉ g x) → st' w = st w) ∧
    ∀ x < n, has x = true → ∀ i < (T x).nx, ∀ j < (T x).ny, ∀ v < (T x).vn,
      (st' ((g x).at (j / (T x).tblock))).mem (R ((g x).at (j / (T x).tblock)) + ((T x).outOff i j v : ℤ)) =
        (st ((g x).at (i / (T x).block))).mem (S ((g x).at (i / (T x).block)) + ((T x).inOff i j v : ℤ)) := by
  intro st'
  have hc' : ∀ x < n, has x = true → ∀ s : Dist, (∀ w ∈ g x, s w = st w) → MCompat (g x) space (T x).inpl S R s := by
    intro x hx hh s hs
    have := hc x hx hh
    exact ⟨fun w hw => by rw [hs w hw]; exact this.blkI w hw, fun w hw => by rw [hs w hw]; exact this.blkO w hw, this.same, this.disj⟩
  have key := runGroups_ok (g := g) (F := fun x st => if has x = true then f x S R st else st) (st := st) n hd ?_
  swap
  · intro x hx s hs w hw
    beta_reduce
    split
    · rename_i hh
      have h1 := hT x hx hh S R s
      rw [hg x, hsp x] at h1
      exact (h1 (hc' x hx hh s hs)).1.other w hw
    · rfl
  obtain ⟨k1, k2⟩ := key
  refine ⟨fun w => ?_, k2, ?_⟩
  · by_cases hw : ∃ x < n, w ∈ g x
    · obtain ⟨x, hx, hw⟩ := hw
      obtain ⟨s, s1, s2⟩ := k1 x hx
      have e : st' w = _ := s2 w hw
      rw [e, ← s1 w hw]
      beta_reduce
      split
      · rename_i hh
        have h1 := hT x hx hh S R s
        rw [hg x, hsp x] at h1
        exact (h1 (hc' x hx hh s s1)).1.frame w hw
      · exact Frame.refl _ _
    · rw [show st' w = st w from k2 w (fun x hx hw' => hw ⟨x, hx, hw'⟩)]
      exact Frame.refl _ _
  · intro x hx hh i hi j hj v hv
    obtain ⟨s, s1, s2⟩ := k1 x hx
    obtain ⟨b1, b2, b3, b4⟩ := hb x hx hh
    have w1 : (g x).at (j / (T x).tblock) ∈ g x := at_mem (blockLt hj b2 b4)
    have w2 : (g x).at (i / (T x).block) ∈ g x := at_mem (blockLt hi b1 b3)
    have e : st' ((g x).at (j / (T x).tblock)) = _ := s2 _ w1
    rw [e, ← s1 _ w2]
    simp only [hh, if_true]
    have h1 := hT x hx hh S R s
    rw [hg x, hsp x] at h1
    exact (h1 (hc' x hx hh s s1)).2 i hi j hj v hv

variable {p : TransP}

/-- `O` or `I` -/
abbrev sel (pre : Bool) (I O : ℕ → Ptr) : ℕ → Ptr := if pre then O else I

theorem sel_eq (h : p.Ok) (pre : Bool) {w : ℕ} (hw : w ∈ p.comm) : (sel pre p.I p.O w = p.O w) ↔ (pre = true ∨ p.inpl) := by
  obtain ⟨a1, a2⟩ := at_idx hw
  cases pre with
  | true => simp [sel]
  | false =>
    simp only [sel, Bool.false_eq_true, if_false, false_or]
    rw [← a2]; exact eq_iff_inpl h a1

theorem sel_apart (h : p.Ok) (pre : Bool) {g : Comm} (hg : ∀ w ∈ g, w ∈ p.comm) :
    MApart g p.space (pre = true ∨ p.inpl) (sel pre p.I p.O) p.O := by
  cases pre with
  | true => exact ⟨fun _ w _ => rfl, fun hn => absurd (Or.inl rfl) hn, fun hn => absurd (Or.inl rfl) hn⟩
  | false =>
    exact ⟨fun hs w hw => h.apart.same (by simpa using hs) w (hg w hw), fun hs w hw => h.apart.disj (by simpa using hs) w (hg w hw),
      fun hs w hw => h.apart.ne (by simpa using hs) w (hg w hw)⟩

theorem sel_apart' (h : p.Ok) (pre : Bool) {g : Comm} (hg : ∀ w ∈ g, w ∈ p.comm) :
    MApart g p.space (pre = true ∨ p.inpl) p.O (sel pre p.I p.O) := by
  have := sel_apart h pre hg
  exact ⟨fun hs w hw => (this.same hs w hw).symm, fun hs w hw x hx y hy e => this.disj hs w hw y hy x hx e.symm, fun hs w hw e => this.ne hs w hw e.symm⟩

theorem sel_compat {I O : ℕ → Ptr} {st st1 : Dist} (hc : MCompat p.comm p.space p.inpl I O st) (hn : ∀ w ∈ p.comm, (st w).next ≤ (st1 w).next) (pre : Bool) {g : Comm}
    (hg : ∀ w ∈ g, w ∈ p.comm) : MCompat g p.space (pre = true ∨ p.inpl) (sel pre I O) O st1 ∧ MCompat g p.space (pre = true ∨ p.inpl) O (sel pre I O) st1 := by
  have bI : ∀ w ∈ g, (I w).blk < (st1 w).next := fun w hw => lt_of_lt_of_le (hc.blkI w (hg w hw)) (hn w (hg w hw))
  have bO : ∀ w ∈ g, (O w).blk < (st1 w).next := fun w hw => lt_of_lt_of_le (hc.blkO w (hg w hw)) (hn w (hg w hw))
  have h1 : MCompat g p.space (pre = true ∨ p.inpl) (sel pre I O) O st1 := by
    cases pre with
    | true => exact ⟨bO, bO, fun _ w _ => rfl, fun hn => absurd (Or.inl rfl) hn⟩
    | false =>
      exact ⟨bI, bO, fun hs w hw => hc.same (by simpa using hs) w (hg w hw), fun hs w hw => hc.disj (by simpa using hs) w (hg w hw)⟩
  exact ⟨h1, ⟨h1.blkO, h1.blkI, fun hs w hw => (h1.same hs w hw).symm, fun hs w hw x hx y hy e => h1.disj hs w hw y hy x hx e.symm⟩⟩

/-- the groups of the first transposition -/
def gr (p : TransP) (r x : ℕ) : Comm := p.comm.split (fun me => me / r) x
/-- the groups of the second transposition -/
def gm (p : TransP) (r x : ℕ) : Comm := p.comm.split (fun me => me % r) x

theorem gr_group (h : p.Ok) {r m x : ℕ} (hl : p.comm.length = r * m) (hr : 0 < r) (hx : x < m) : Group p.comm (gr p r x) r (fun a => x * r + a) := by
  refine group_of h.nodup (split_div hl hr hx) ?_ (fun a _ b _ e => by omega)
  intro a ha
  have := lin_lt hx ha
  rw [hl, Nat.mul_comm r]; exact this

theorem gm_group (h : p.Ok) {r m x : ℕ} (hl : p.comm.length = r * m) (hr : 0 < r) (hx : x < r) : Group p.comm (gm p r x) m (fun a => a * r + x) := by
  refine group_of h.nodup (split_mod hl hr hx) ?_ (fun a _ b _ e => (lin_inj hx hx e).1)
  intro a ha
  have := lin_lt ha hx
  rw [hl, Nat.mul_comm r]; exact this

theorem gr_disj (h : p.Ok) {r m : ℕ} (hl : p.comm.length = r * m) (hr : 0 < r) : ∀ x < m, ∀ y < m, x ≠ y → ∀ w ∈ gr p r x, w ∉ gr p r y := by
  intro x hx y hy hne w hw hw'
  have g1 := gr_group h hl hr hx
  have g2 := gr_group h hl hr hy
  obtain ⟨a, ha, rfl⟩ := g1.mem hw
  obtain ⟨b, hb, e⟩ := g2.mem hw'
  exact hne (lin_inj ha hb (at_inj h.nodup (g1.lt a ha) (g2.lt b hb) e)).1

theorem gm_disj (h : p.Ok) {r m : ℕ} (hl : p.comm.length = r * m) (hr : 0 < r) : ∀ x < r, ∀ y < r, x ≠ y → ∀ w ∈ gm p r x, w ∉ gm p r y := by
  intro x hx y hy hne w hw hw'
  have g1 := gm_group h hl hr hx
  have g2 := gm_group h hl hr hy
  obtain ⟨a, ha, rfl⟩ := g1.mem hw
  obtain ⟨b, hb, e⟩ := g2.mem hw'
  exact hne (lin_inj hx hy (at_inj h.nodup (g1.lt a ha) (g2.lt b hb) e)).2

/-- blocks of blocks -/
theorem block_block (n b r x a : ℕ) (ha : a < r) : Mpi.block (Mpi.block n (r * b) x) b a = Mpi.block n b (x * r + a) := by
  rw [block_eq, block_eq, block_eq]
  have e1 : (x * r + a) * b = x * (r * b) + a * b := by ring
  have e2 : (a + 1) * b ≤ r * b := Nat.mul_le_mul_right _ ha
  have e3 : (a + 1) * b = a * b + b := by ring
  omega

/-- the last dimension is divided evenly -/
theorem block_even {n b k x : ℕ} (hn : b * k = n) (hx : x < k) : Mpi.block n b x = b := by
  rw [block_eq, ← hn]
  have e2 : (x + 1) * b ≤ k * b := Nat.mul_le_mul_right _ hx
  have e3 : (x + 1) * b = x * b + b := by ring
  have e4 : b * k = k * b := Nat.mul_comm _ _
  omega

/-- the first transposition's problem, as given -/
def rTr (p : TransP) (r m : ℕ) (I : ℕ → Ptr) (x : ℕ) : TransP :=
  rawT (Mpi.block p.nx (r * p.block) x) p.ny p.vn p.O I p.block (m * p.tblock) (gr p r x) { transposedIn := if ¬ p.inpl then true else p.flags.transposedIn } p.space
/-- the second one's -/
def rTm (p : TransP) (r m : ℕ) (I : ℕ → Ptr) (x : ℕ) : TransP :=
  rawT p.nx (Mpi.block p.ny (m * p.tblock) x) p.vn I p.O (r * p.block) p.tblock (gm p r x) { transposedIn := true, transposedOut := p.flags.transposedOut } p.space

theorem enough {nx ny block tblock r npes : ℕ} (h : enoughSpace nx ny block tblock r npes = true) {pe : ℕ} (hp : pe < npes) :
    transposeSpace (Mpi.block nx (r * block) (pe / r)) ny block (npes / r * tblock) (pe % r) ≤ transposeSpace nx ny block tblock pe ∧
      transposeSpace nx (Mpi.block ny (npes / r * tblock) (pe % r)) (r * block) tblock (pe / r) ≤ transposeSpace nx ny block tblock pe := by
  unfold enoughSpace at h
  simp only [List.all_eq_true, List.mem_range] at h
  have := h pe hp
  simp only [Bool.not_eq_true', Bool.or_eq_false_iff, decide_eq_false_iff_not] at this
  omega

theorem TransP.Ok.room (h : p.Ok) {pe : ℕ} (hp : pe < p.comm.length) : transposeSpace p.nx p.ny p.block p.tblock pe * p.vn ≤ p.space (p.comm.at pe) := by
  have h1 := h.roomIn pe hp
  have h2 := h.roomOut pe hp
  unfold transposeSpace
  rcases max_choice (Mpi.block p.nx p.block pe * p.ny) (p.nx * Mpi.block p.ny p.tblock pe) with e | e <;> rw [e] <;> assumption

structure RecOk (p : TransP) (r m : ℕ) : Prop where
  ok : p.Ok
  rpos : 0 < r
  mpos : 0 < m
  len : p.comm.length = r * m
  ny : p.tblock * (r * m) = p.ny
  space : enoughSpace p.nx p.ny p.block p.tblock r p.comm.length = true

theorem RecOk.div {r m : ℕ} (h : RecOk p r m) : p.comm.length / r = m := by rw [h.len]; exact Nat.mul_div_cancel_left _ h.rpos

theorem RecOk.pe {r m x a : ℕ} (h : RecOk p r m) (ha : a < r) : (x * r + a) / r = x ∧ (x * r + a) % r = a := by
  constructor
  · rw [Nat.add_comm, Nat.add_mul_div_right _ _ h.rpos, Nat.div_eq_of_lt ha]; omega
  · rw [Nat.add_comm, Nat.add_mul_mod_self_right, Nat.mod_eq_of_lt ha]

theorem RecOk.ny' {r m : ℕ} (h : RecOk p r m) : m * p.tblock * r = p.ny := by rw [← h.ny]; ring

theorem tr_kosher {r m : ℕ} (h : RecOk p r m) (pre : Bool) {x : ℕ} (hx : x < m) {q : MProblem} (hq : recurseTr p r m (sel pre p.I p.O) x = some q) {fl : Flags} : MKosher fl q := by
  unfold recurseTr at hq
  simp only at hq
  split at hq
  swap
  · simp at hq
  rename_i hb
  obtain rfl := Option.some.inj hq
  have G := gr_group h.ok h.len h.rpos hx
  have hg0 : (gr p r x).at 0 ∈ p.comm := by rw [G.at_ 0 h.rpos]; exact at_mem (G.lt 0 h.rpos)
  refine mkTrans_ok (comm := gr p r x) G.nodup (by omega) h.ok.ny h.ok.vn h.ok.blk.1 (Nat.mul_pos h.mpos h.ok.tblk.1) ?_ ?_ ?_ ?_ ?_
  · rw [G.len]; exact block_le _ _ _
  · rw [G.len, ← h.ny]; exact le_of_eq (by ring)
  · intro a ha
    rw [G.len] at ha
    rw [G.at_ a ha, block_block _ _ _ _ _ ha]
    exact h.ok.roomIn _ (G.lt a ha)
  · intro a ha
    rw [G.len] at ha
    rw [G.at_ a ha]
    have e := (enough h.space (G.lt a ha)).1
    rw [h.div, (h.pe ha).1, (h.pe ha).2] at e
    refine le_trans (Nat.mul_le_mul_right _ (le_trans (le_max_right _ _) e)) (h.ok.room (G.lt a ha))
  · have e : (p.O ((gr p r x).at 0) = sel pre p.I p.O ((gr p r x).at 0)) ↔ (pre = true ∨ p.inpl) := by
      rw [← sel_eq h.ok pre hg0]; exact eq_comm
    have := sel_apart' h.ok pre (g := gr p r x) (fun w hw => G.sub hw)
    rw [← e] at this
    exact this

theorem tm_kosher {r m : ℕ} (h : RecOk p r m) (pre : Bool) {x : ℕ} (hx : x < r) {q : MProblem} (hq : recurseTm p r m (sel pre p.I p.O) x = some q) {fl : Flags} : MKosher fl q := by
  unfold recurseTm at hq
  simp only at hq
  split at hq
  swap
  · simp at hq
  rename_i hb
  obtain rfl := Option.some.inj hq
  have G := gm_group h.ok h.len h.rpos hx
  have hg0 : (gm p r x).at 0 ∈ p.comm := by rw [G.at_ 0 h.mpos]; exact at_mem (G.lt 0 h.mpos)
  refine mkTrans_ok (comm := gm p r x) G.nodup h.ok.nx (by omega) h.ok.vn (Nat.mul_pos h.rpos h.ok.blk.1) h.ok.tblk.1 ?_ ?_ ?_ ?_ ?_
  · rw [G.len]
    have := h.ok.pes
    rw [h.len] at this
    exact this.trans (le_of_eq (by ring))
  · rw [G.len]; exact block_le _ _ _
  · intro a ha
    rw [G.len] at ha
    rw [G.at_ a ha]
    have e := (enough h.space (G.lt a ha)).2
    rw [h.div, (h.pe hx).1, (h.pe hx).2] at e
    refine le_trans (Nat.mul_le_mul_right _ (le_trans (le_max_left _ _) e)) (h.ok.room (G.lt a ha))
  · intro a ha
    rw [G.len] at ha
    rw [G.at_ a ha]
    have e := (enough h.space (G.lt a ha)).2
    rw [h.div, (h.pe hx).1, (h.pe hx).2] at e
    refine le_trans (Nat.mul_le_mul_right _ (le_trans (le_max_right _ _) e)) (h.ok.room (G.lt a ha))
  · have := sel_apart h.ok pre (g := gm p r x) (fun w hw => G.sub hw)
    rw [← sel_eq h.ok pre hg0] at this
    exact this

theorem tr_some {r m : ℕ} {I : ℕ → Ptr} {x : ℕ} (hs : (recurseTr p r m I x).isSome = true) {nd : Bool} {f : MPlan} (hf : ∀ q, recurseTr p r m I x = some q → MSound nd q f) :
    TOK nd (rTr p r m I x) f := by
  unfold recurseTr at hs hf
  simp only at hs hf
  split at hs
  swap
  · simp at hs
  rename_i hb
  rw [if_pos hb] at hf
  exact tok_raw (hf _ rfl)

theorem tm_some {r m : ℕ} {I : ℕ → Ptr} {x : ℕ} (hs : (recurseTm p r m I x).isSome = true) {nd : Bool} {f : MPlan} (hf : ∀ q, recurseTm p r m I x = some q → MSound nd q f) :
    TOK nd (rTm p r m I x) f := by
  unfold recurseTm at hs hf
  simp only at hs hf
  split at hs
  swap
  · simp at hs
  rename_i hb
  rw [if_pos hb] at hf
  exact tok_raw (hf _ rfl)

/-- the two rounds of transpositions -/
theorem rec_tail {r m : ℕ} (h : RecOk p r m) {nd pre : Bool} (hpre : pre = false → nd = false) {cldtr cldtm : ℕ → MPlan}
    (h1 : ∀ x < m, ∀ q, recurseTr p r m (sel pre p.I p.O) x = some q → MSound nd q (cldtr x))
    (h2 : ∀ x < r, ∀ q, recurseTm p r m (sel pre p.I p.O) x = some q → MSound nd q (cldtm x))
    {I O : ℕ → Ptr} {st st1 : Dist} (hc : MCompat p.comm p.space p.inpl I O st) (hn : ∀ w ∈ p.comm, (st w).next ≤ (st1 w).next) :
    let st2 := runGroups m (fun x st => if (recurseTr p r m (sel pre p.I p.O) x).isSome then cldtr x O (sel pre I O) st else st) st1
    let st3 := runGroups r (fun x st => if (recurseTm p r m (sel pre p.I p.O) x).isSome then cldtm x (sel pre I O) O st else st) st2
    MFrame p.comm p.space nd I O st1 st3 ∧ ∀ i < p.nx, ∀ j < p.ny, ∀ v < p.vn,
      (st3 (p.comm.at (j / p.tblock))).mem (O (p.comm.at (j / p.tblock)) + (p.outOff i j v : ℤ)) =
        (st1 (p.comm.at (i / p.block))).mem (O (p.comm.at (i / p.block)) + (recOff p (decide p.inpl) i (sg r m p.tblock j) v : ℤ)) := by
  intro st2 st3
  have gsub : ∀ x < m, ∀ w ∈ gr p r x, w ∈ p.comm := fun x hx w hw => (gr_group h.ok h.len h.rpos hx).sub hw
  have gsub' : ∀ x < r, ∀ w ∈ gm p r x, w ∈ p.comm := fun x hx w hw => (gm_group h.ok h.len h.rpos hx).sub hw
  have hinpl : ∀ x < m, (rTr p r m (sel pre p.I p.O) x).inpl ↔ (pre = true ∨ p.inpl) := by
    intro x hx
    have G := gr_group h.ok h.len h.rpos hx
    rw [← sel_eq h.ok pre (w := (gr p r x).at 0) (by rw [G.at_ 0 h.rpos]; exact at_mem (G.lt 0 h.rpos))]
    exact eq_comm
  have hinpl' : ∀ x < r, (rTm p r m (sel pre p.I p.O) x).inpl ↔ (pre = true ∨ p.inpl) := by
    intro x hx
    have G := gm_group h.ok h.len h.rpos hx
    rw [← sel_eq h.ok pre (w := (gm p r x).at 0) (by rw [G.at_ 0 h.mpos]; exact at_mem (G.lt 0 h.mpos))]
    exact Iff.rfl
  obtain ⟨a1, a2, a3⟩ := groups_ok (nd := nd) (n := m) (T := rTr p r m (sel pre p.I p.O)) (has := fun x => (recurseTr p r m (sel pre p.I p.O) x).isSome) (f := cldtr)
    (S := O) (R := sel pre I O) (st := st1) (space := p.space) (g := gr p r) (fun _ => rfl) (fun _ => rfl) (gr_disj h.ok h.len h.rpos)
    (fun x hx hh => tr_some hh (h1 x hx)) (fun x hx _ => by rw [hinpl x hx]; exact (sel_compat hc hn pre (gsub x hx)).2)
    (fun x hx _ => ⟨h.ok.blk.1, Nat.mul_pos h.mpos h.ok.tblk.1, by rw [(gr_group h.ok h.len h.rpos hx).len]; exact block_le _ _ _, by
      rw [(gr_group h.ok h.len h.rpos hx).len]
      show p.ny ≤ r * (m * p.tblock)
      rw [← h.ny]; exact le_of_eq (by ring)⟩)
  have hn2 : ∀ w ∈ p.comm, (st w).next ≤ (st2 w).next := fun w hw => (hn w hw).trans (a1 w).next
  obtain ⟨b1, b2, b3⟩ := groups_ok (nd := nd) (n := r) (T := rTm p r m (sel pre p.I p.O)) (has := fun x => (recurseTm p r m (sel pre p.I p.O) x).isSome) (f := cldtm)
    (S := sel pre I O) (R := O) (st := st2) (space := p.space) (g := gm p r) (fun _ => rfl) (fun _ => rfl) (gm_disj h.ok h.len h.rpos)
    (fun x hx hh => tm_some hh (h2 x hx)) (fun x hx _ => by rw [hinpl' x hx]; exact (sel_compat hc hn2 pre (gsub' x hx)).1)
    (fun x hx _ => ⟨Nat.mul_pos h.rpos h.ok.blk.1, h.ok.tblk.1, by
      rw [(gm_group h.ok h.len h.rpos hx).len]
      have := h.ok.pes
      rw [h.len] at this
      exact this.trans (le_of_eq (show r * m * p.block = m * (r * p.block) by ring)), by rw [(gm_group h.ok h.len h.rpos hx).len]; exact block_le _ _ _⟩)
  have hsel : ∀ w q, In (sel pre I O w) (p.space w) q → PW nd (I w) (O w) (p.space w) q := by
    intro w q hq
    cases pre with
    | true => exact Or.inl hq
    | false => exact Or.inr ⟨hpre rfl, hq⟩
  constructor
  · refine ⟨fun w hw => ?_, fun w hw => ?_⟩
    · have e1 : st3 w = st2 w := b2 w fun x hx hw' => hw (gsub' x hx w hw')
      have e2 : st2 w = st1 w := a2 w fun x hx hw' => hw (gsub x hx w hw')
      rw [e1, e2]
    · have F : Frame (st1 w) (st3 w) (PW nd (I w) (O w) (p.space w)) := by
        refine (a1 w).trans (b1 w) ?_ ?_
        · rintro q _ (hq | ⟨_, hq⟩)
          · exact hsel w q hq
          · exact Or.inl hq
        · rintro q _ (hq | ⟨_, hq⟩)
          · exact Or.inl hq
          · exact hsel w q hq
      exact F
  · intro i hi j hj v hv
    have hj' : j < p.tblock * (r * m) := by rw [h.ny]; exact hj
    obtain ⟨c1, c2, c3, c4⟩ := sg_spec h.rpos h.ok.tblk.1 hj'
    have hsl := sg_lt h.rpos h.ok.tblk.1 hj'
    rw [h.ny] at hsl
    obtain ⟨d1, d2⟩ := sg_div h.rpos h.ok.tblk.1 hj'
    have hrb : 0 < r * p.block := Nat.mul_pos h.rpos h.ok.blk.1
    have hx : i / (r * p.block) < m := by
      refine blockLt hi hrb ?_
      have := h.ok.pes
      rw [h.len] at this
      exact this.trans (le_of_eq (by ring))
    have hil : i % (r * p.block) < Mpi.block p.nx (r * p.block) (i / (r * p.block)) := block_mod hi hrb
    have hb2 : Mpi.block p.ny (m * p.tblock) (j / p.tblock % r) = m * p.tblock := block_even h.ny' c1
    have hjl : j / p.tblock / r * p.tblock + j % p.tblock < m * p.tblock := lin_lt c2 c3
    -- groups
    have G := gr_group h.ok h.len h.rpos hx
    have G' := gm_group h.ok h.len h.rpos c1
    have ea : i % (r * p.block) / p.block = i / p.block % r := by
      rw [Nat.mul_comm r]; exact Nat.mod_mul_right_div_self _ _ _
    have eb : i / (r * p.block) = i / p.block / r := by rw [Nat.mul_comm r, Nat.div_div_eq_div_mul]
    have ec : i % (r * p.block) % p.block = i % p.block := Nat.mod_mul_left_mod _ _ _
    have ed : i / (r * p.block) * r + i / p.block % r = i / p.block := by
      rw [eb, Nat.mul_comm]; exact Nat.div_add_mod _ _
    have hir : i / p.block % r < r := Nat.mod_lt _ h.rpos
    -- second transposition
    have v2 := b3 (j / p.tblock % r) c1 (by
      show (recurseTm _ _ _ _ _).isSome = true
      unfold recurseTm
      simp only
      rw [hb2, if_pos (by omega)]; rfl) i hi (j / p.tblock / r * p.tblock + j % p.tblock) (by
        show _ < Mpi.block p.ny (m * p.tblock) (j / p.tblock % r)
        rw [hb2]; exact hjl) v hv
    have v1 := a3 (i / (r * p.block)) hx (by
      show (recurseTr _ _ _ _ _).isSome = true
      unfold recurseTr
      simp only
      rw [if_pos (by omega)]; rfl) (i % (r * p.block)) hil (sg r m p.tblock j) hsl v hv
    have e1 : (j / p.tblock / r * p.tblock + j % p.tblock) / p.tblock = j / p.tblock / r ∧ (j / p.tblock / r * p.tblock + j % p.tblock) % p.tblock = j % p.tblock := by
      constructor
      · rw [Nat.add_comm, Nat.add_mul_div_right _ _ h.ok.tblk.1, Nat.div_eq_of_lt c3]; omega
      · rw [Nat.add_comm, Nat.add_mul_mod_self_right, Nat.mod_eq_of_lt c3]
    have ee : j / p.tblock / r * r + j / p.tblock % r = j / p.tblock := by rw [Nat.mul_comm]; exact Nat.div_add_mod _ _
    have w1 : (gm p r (j / p.tblock % r)).at ((j / p.tblock / r * p.tblock + j % p.tblock) / p.tblock) = p.comm.at (j / p.tblock) := by
      rw [e1.1, G'.at_ _ c2]
      beta_reduce
      rw [ee]
    have w2 : (gm p r (j / p.tblock % r)).at (i / (r * p.block)) = p.comm.at (i / (r * p.block) * r + j / p.tblock % r) := G'.at_ _ hx
    have w3 : (gr p r (i / (r * p.block))).at (sg r m p.tblock j / (m * p.tblock)) = p.comm.at (i / (r * p.block) * r + j / p.tblock % r) := by
      rw [d1]; exact G.at_ _ c1
    have w4 : (gr p r (i / (r * p.block))).at (i % (r * p.block) / p.block) = p.comm.at (i / p.block) := by
      rw [ea, G.at_ _ hir]
      beta_reduce
      rw [ed]
    have o1 : (rTm p r m (sel pre p.I p.O) (j / p.tblock % r)).outOff i (j / p.tblock / r * p.tblock + j % p.tblock) v = p.outOff i j v := by
      unfold TransP.outOff rTm rawT
      simp only
      have f1 : Mpi.block p.ny p.tblock (j / p.tblock) = p.tblock := block_even h.ny (by
        have := lin_lt c2 c1
        rw [ee] at this
        rw [Nat.mul_comm r]; exact this)
      have f2 : Mpi.block (m * p.tblock) p.tblock (j / p.tblock / r) = p.tblock := block_even (Nat.mul_comm _ _) c2
      split
      · unfold colOff
        rw [e1.1, e1.2, hb2, f1, f2]
      · unfold rowOff
        rw [e1.2]
    have o2 : (rTm p r m (sel pre p.I p.O) (j / p.tblock % r)).inOff i (j / p.tblock / r * p.tblock + j % p.tblock) v =
        (rTr p r m (sel pre p.I p.O) (i / (r * p.block))).outOff (i % (r * p.block)) (sg r m p.tblock j) v := by
      unfold TransP.outOff TransP.inOff rTm rTr rawT
      simp only
      rw [if_pos trivial, if_neg (by decide)]
      unfold colOff rowOff
      rw [d2]
    have o3 : (rTr p r m (sel pre p.I p.O) (i / (r * p.block))).inOff (i % (r * p.block)) (sg r m p.tblock j) v = recOff p (decide p.inpl) i (sg r m p.tblock j) v := by
      unfold TransP.inOff rTr rawT recOff
      simp only
      have f1 : colOff (Mpi.block p.nx (r * p.block) (i / (r * p.block))) p.vn p.block (i % (r * p.block)) (sg r m p.tblock j) v =
          colOff p.nx p.vn p.block i (sg r m p.tblock j) v := by
        unfold colOff
        rw [ea, ec, block_block _ _ _ _ _ hir, ed]
      have f2 : rowOff p.ny p.vn p.block (i % (r * p.block)) (sg r m p.tblock j) v = rowOff p.ny p.vn p.block i (sg r m p.tblock j) v := by
        unfold rowOff
        rw [ec]
      rw [f1, f2]
      by_cases hi : p.inpl <;> simp [hi]
    have v2' : (st3 (p.comm.at (j / p.tblock))).mem (O (p.comm.at (j / p.tblock)) + (p.outOff i j v : ℤ)) =
        (st2 ((gm p r (j / p.tblock % r)).at (i / (r * p.block)))).mem (sel pre I O ((gm p r (j / p.tblock % r)).at (i / (r * p.block))) + ((rTm p r m (sel pre p.I p.O) (j / p.tblock % r)).inOff i (j / p.tblock / r * p.tblock + j % p.tblock) v : ℤ)) := by
      rw [← w1, ← o1]; exact v2
    rw [v2']
    have v1' : (st1 (p.comm.at (i / p.block))).mem (O (p.comm.at (i / p.block)) + (recOff p (decide p.inpl) i (sg r m p.tblock j) v : ℤ)) =
        (st2 ((gr p r (i / (r * p.block))).at (sg r m p.tblock j / (m * p.tblock)))).mem (sel pre I O ((gr p r (i / (r * p.block))).at (sg r m p.tblock j / (m * p.tblock))) + ((rTr p r m (sel pre p.I p.O) (i / (r * p.block))).outOff (i % (r * p.block)) (sg r m p.tblock j) v : ℤ)) := by
      rw [← w4, ← o3]; exact v1.symm
    rw [v1', o2]
    exact congrArg (fun w => (st2 w).mem (sel pre I O w + ((rTr p r m (sel pre p.I p.O) (i / (r * p.block))).outOff (i % (r * p.block)) (sg r m p.tblock j) v : ℤ))) (w2.trans w3.symm)

theorem recurse_sound (rx : Radix) (preserve : Bool) (heur : TransP → Flags → Bool) : (transposeRecurse rx preserve heur).Sound := by
  intro pr fl hk
  cases pr with
  | dft p => exact fun f hf => by simp at hf
  | rdft p => exact fun f hf => by simp at hf
  | transpose p =>
  have h : p.Ok := hk
  show (recurseMk rx preserve (heur p fl) p fl).Good fl _
  unfold recurseMk
  simp only
  by_cases ha : recurseApplicable rx preserve (heur p fl) p fl = true
  swap
  · rw [if_pos (by simpa using ha)]
    exact fun f hf => by simp at hf
  rw [if_neg (by simp [ha])]
  unfold recurseApplicable at ha
  simp only [Bool.and_eq_true, decide_eq_true_eq] at ha
  obtain ⟨⟨⟨⟨⟨⟨⟨g1, _⟩, g2⟩, g3⟩, g4⟩, g5⟩, _⟩, _⟩ := ha
  have hdv := radix_dvd rx g2
  generalize rx.of p.comm.length = r at *
  have hr : 0 < r := by omega
  obtain ⟨m, hm⟩ := hdv
  have hmd : p.comm.length / r = m := by rw [hm]; exact Nat.mul_div_cancel_left _ hr
  rw [hmd]
  have R : RecOk p r m := ⟨h, hr, by
    rcases Nat.eq_zero_or_pos m with h0 | h0
    · rw [h0] at hm; have := h.len; omega
    · exact h0, hm, by rw [← hm]; exact g1, g5⟩
  have hnd : (preserve || fl.nd) = false → fl.nd = false := by cases preserve <;> simp
  generalize (preserve || fl.nd) = pre at hnd ⊢
  have hfar0 : ∀ me < p.comm.length, p.I (p.comm.at me) ≠ p.O (p.comm.at me) → Far (p.I (p.comm.at me)) (p.O (p.comm.at me)) (p.space (p.comm.at me)) :=
    fun me hme hne => far0 h (fun hi => hne ((eq_iff_inpl h hme).2 hi)) hme
  have hdec : ∀ me < p.comm.length, decide (p.I (p.comm.at me) = p.O (p.comm.at me)) = decide p.inpl := fun me hme => by
    rw [decide_eq_decide]; exact eq_iff_inpl h hme
  refine good_needLoc (fun f hf => by simp at hf) ?_ fun cld1 hc1 => ?_
  · intro me hme x hx
    obtain rfl := Option.some.inj hx
    exact kosher_rdft0 (rec1_copy R.len R.ny _ me) fun hne => (hfar0 me hme hne).mono (h.nin_le hme)
  rw [nd_noSlow] at hc1
  refine good_needGrp (fun f hf => by simp at hf) (fun x hx q hq => tr_kosher R pre hx hq) fun cldtr htr => ?_
  refine good_needGrp (fun f hf => by simp at hf) (fun x hx q hq => tm_kosher R pre hx hq) fun cldtm htm f hf => ?_
  obtain rfl := Option.some.inj hf
  rw [modify_default] at htr htm
  intro I O st hc
  have hs : ∀ me < p.comm.length, p.I (p.comm.at me) = p.O (p.comm.at me) → I (p.comm.at me) = O (p.comm.at me) :=
    fun me hme e => hc.same ((eq_iff_inpl h hme).1 e) _ (at_mem hme)
  have hfar : ∀ me < p.comm.length, p.I (p.comm.at me) ≠ p.O (p.comm.at me) → Far (I (p.comm.at me)) (O (p.comm.at me)) (p.space (p.comm.at me)) :=
    fun me hme hne => far_of h hc (fun hi => hne ((eq_iff_inpl h hme).2 hi)) hme
  have hpre : ∀ me < p.comm.length, _ := fun me hme => copy_ok' (rec1_copy R.len R.ny _ me) (hc1 me hme _ rfl) (hc.blkI _ (at_mem hme)) (hc.blkO _ (at_mem hme))
    (hs me hme) (fun hne => (hfar me hme hne).mono (h.nin_le hme))
  simp only
  generalize hst1 : p.comm.run (fun me => (cld1 me).rdftApply (I (p.comm.at me)) (O (p.comm.at me))) st = st1
  have est1 : ∀ me < p.comm.length, st1 (p.comm.at me) = (cld1 me).rdftApply (I (p.comm.at me)) (O (p.comm.at me)) (st (p.comm.at me)) :=
    fun me hme => by rw [← hst1, run_at h.nodup hme]
  have F1 : MFrame p.comm p.space fl.nd I O st st1 := by
    refine mframe (fun w hw => by rw [← hst1, run_other hw]) fun me hme => ?_
    rw [est1 me hme]
    exact (hpre me hme).1.mono fun q _ hq => PW.mono hq (h.nin_le hme)
  obtain ⟨F2, V⟩ := rec_tail R hnd htr htm hc (fun w hw => (F1.frame w hw).next)
  refine ⟨⟨fun w hw => (F2.other w hw).trans (F1.other w hw), fun w hw => (F1.frame w hw).trans (F2.frame w hw) (fun _ _ h => h) (fun _ _ h => h)⟩, ?_⟩
  intro i hi j hj v hv
  refine (V i hi j hj v hv).trans ?_
  have hq := blockLt hi h.blk.1 h.pes
  rw [est1 _ hq]
  have := (hpre _ hq).2 _ (rec1_pair hr h.blk.1 h.tblk.1 R.len R.ny (decide (p.I (p.comm.at (i / p.block)) = p.O (p.comm.at (i / p.block)))) hi hj hv)
  rw [hdec _ hq] at this
  exact this

end FFTW.Mpi
