import Verif.Proofs.Rdft2Chunks

/-! # rdft2-rdft.c and buffered2.c -/

namespace FFTW
open Tensor Spec DftS RdftS Finset Api

/-- rows of `n` numbers, `bd ≥ n` apart -/
theorem buf_rowInj {n m bd : ℕ} (h : n ≤ bd) : RowInj n m (fun k => (k : ℤ) * 1) (bd : ℤ) := by
  intro j _ t ht j' _ t' ht' e
  simp only [mul_one] at e
  have h3 : j * bd + t = j' * bd + t' := by exact_mod_cast e
  have e1 : (bd * j + t) / bd = j := by rw [Nat.mul_add_div (by omega), Nat.div_eq_of_lt (by omega), add_zero]
  have e2 : (bd * j' + t') / bd = j' := by rw [Nat.mul_add_div (by omega), Nat.div_eq_of_lt (by omega), add_zero]
  have hj : j = j' := by rw [← e1, ← e2, mul_comm bd, mul_comm bd, h3]
  subst hj
  exact ⟨rfl, by omega⟩

variable [CLib]

theorem rdft2Rdft_sound (szR : ℕ) (taste : Taste) : (Rdft2S.rdft2Rdft szR taste).Sound := by
  apply rdft2Solver_sound
  intro p fl hk
  obtain ⟨he, hap, hn1, hn0, hvv⟩ := kosher_rdft2 hk
  split
  rotate_left
  · exact good_nada
  rename_i d v hsz hv
  split
  rotate_left
  · exact good_nada
  rename_i vd htor
  split
  rotate_left
  · exact good_nada
  rename_i happ
  obtain ⟨hcontig, -⟩ := happ
  dsimp only
  obtain ⟨n, is, os⟩ := d
  obtain ⟨hvn, hvp⟩ := hvv v hv
  have hvd1 := tornk1_pos htor hvp
  obtain ⟨hvi, hvo⟩ := tornk1_nonneg htor hvn
  obtain ⟨vl, ivs, ovs⟩ := vd
  have hdn := hn1 ⟨n, is, os⟩ (by rw [hsz]; simp)
  have hdp := hn0 ⟨n, is, os⟩ (by rw [hsz]; simp)
  simp only at hvd1 hvi hvo hdn hdp ⊢
  generalize hnb : max (nbuf szR n vl 0) (Rdft2S.minNbuf p ⟨n, is, os⟩ vl) = nb
  have hnb1 : 0 < nb := by
    have := (nbuf_bounds szR n vl 0 hvd1).1
    rw [← hnb]; exact lt_of_lt_of_le this (le_max_left _ _)
  have hbdn : n ≤ bufdist n vl := bufdist_ge n vl
  set bd := bufdist n vl with hbd
  set bufs := planBuf [p.r0, p.r1, p.cr, p.ci] with hbufs
  have hblk : ∀ q ∈ [p.r0, p.r1, p.cr, p.ci], ∀ a b : ℤ, q + a ≠ bufs + b := by
    intro q hq a b he
    have h1 := congrArg Ptr.blk he
    have h2 : q.blk = bufs.blk := h1
    have := planBuf_blk hq
    rw [← hbufs, ← h2] at this; exact absurd this (lt_irrefl _)
  obtain ⟨ρ, hρ⟩ : ∃ ρ : ℤ, ρ = (p.r1 - p.r0 : ℤ) := ⟨_, rfl⟩
  obtain ⟨δ, hδ⟩ : ∃ δ : ℤ, δ = (p.ci - p.cr : ℤ) := ⟨_, rfl⟩
  rw [← hρ] at hcontig
  have e1 : ∀ s : ℤ, ((vl / nb : ℕ) : ℤ) * (s * (nb : ℤ)) = ((vl / nb * nb : ℕ) : ℤ) * s := by intro s; push_cast; ring
  have e2 : ∀ (i : ℕ) (s : ℤ), (i : ℤ) * (s * (nb : ℤ)) = (i : ℤ) * ((nb : ℤ) * s) := by intro i s; ring
  have e3 : ∀ s : ℤ, s * ((nb : ℤ) * ((vl / nb : ℕ) : ℤ)) = ((vl / nb * nb : ℕ) : ℤ) * s := by intro s; push_cast; ring
  have e4 : ∀ (i j : ℕ) (s : ℤ), ((i * nb + j : ℕ) : ℤ) * s = (i : ℤ) * ((nb : ℤ) * s) + (j : ℤ) * s := by intro i j s; push_cast; ring
  split
  · rename_i hkd
    simp only [hkd, Rdft2S.rstride] at hcontig
    have his : is.tdiv 2 = ρ := by rw [← hcontig]; exact Int.mul_tdiv_cancel_left _ (by norm_num)
    apply good_need
    · refine kosher_mkproblemRdft ?_ ?_
      · simpa [PosK] using hdp
      · intro _ a _ b _
        exact hblk _ (by simp) _ _
    intro c1 h1
    have hnd : (fl.modify { ureset := if p.r0 = p.cr then NO_DESTROY_INPUT else 0 }).nd = if p.r0 = p.cr then false else fl.nd := by
      split
      · exact nd_destroyInput fl
      · exact congrArg Flags.nd (modify_default fl)
    rw [hnd] at h1
    obtain ⟨hG1, -⟩ := sound_mkproblemRdft (by simpa [PosK] using hdp) h1
    rw [decide_eq_false (fun h => hblk p.r0 (by simp) 0 0 (by rw [Ptr.add_zero, Ptr.add_zero]; exact h)), his] at hG1
    obtain ⟨k3, s3⟩ := rest_kosher hk (nb := nb) (rd := ivs * ((nb : ℤ) * ((vl / nb : ℕ) : ℤ))) (cd := ovs * ((nb : ℤ) * ((vl / nb : ℕ) : ℤ)))
      hsz hv htor (fun _ => ⟨e3 _, e3 _⟩) (fun h => by rw [hkd] at h; cases h)
    apply good_need k3
    intro c3 h3
    rw [modify_default] at h3
    obtain ⟨ip2, hG3, hA, hB⟩ := s3 _ _ h3
    apply good_ret
    have piece := Rows.via (h := half2 .R2HC ⟨n, is, os⟩ ρ δ) (d := ⟨nb, ivs, ovs⟩) (e := 0) (inpl := decide (p.r0 = p.cr)) (nd := fl.nd)
      (by
        have := hG1.rows
        have hA : (half2 .R2HC ⟨n, is, os⟩ ρ δ).A = fun i : ℕ => (i : ℤ) * ρ := by
          funext t; show zig ρ is t = _; rw [← hcontig, zig_double]
        rw [hA]
        exact this)
      (hc2c_rows hdp nb bd ovs δ os) (buf_rowInj hbdn) (by
        intro h
        by_cases e : p.r0 = p.cr
        · right; simp [e]
        · left; simpa [e] using h) (fun x y hxy t ht => hcv_congr x y hxy hdp t ht)
      (fun x t ht => r2c_of_hc hdp x ρ is δ os t ht)
    refine rounds hk hnb1 hsz hv htor (f := fun r0 _ cr ci => withBuf fun B st =>
        forN nb (fun j => Rdft2S.hc2c n (B + (j : ℤ) * (bd : ℤ)) (cr + (j : ℤ) * ovs) (ci + (j : ℤ) * ovs) os) (c1.rdftApply r0 B st))
      (g := c3.rdft2Apply) ?_ hG3 hA hB ?_
    · rw [hkd, ← hρ, ← hδ]
      refine piece.congr fun I O st => ?_
      simp only [run2, Ptr.add_zero, Ptr.add_add, add_comm δ]
    · intro I O st
      rw [hkd]
      simp only [run2]
      rw [bufLoop_eq hnb1 _ _ _ _ (by simp) (by simp)]
      simp only [Nat.sub_zero, zero_add, Ptr.add_add]
      simp only [e1, e2, e4, add_comm (p.r1 - p.r0 : ℤ), add_comm (p.ci - p.cr : ℤ), add_right_comm]
  · rename_i hkd
    simp only [hkd, Rdft2S.rstride] at hcontig
    have his : os.tdiv 2 = ρ := by rw [← hcontig]; exact Int.mul_tdiv_cancel_left _ (by norm_num)
    apply good_need
    · refine kosher_mkproblemRdft ?_ ?_
      · simpa [PosK] using hdp
      · intro _ a _ b _
        exact (hblk _ (by simp) _ _).symm
    intro c1 h1
    rw [nd_destroyInput] at h1
    obtain ⟨hG1, -⟩ := sound_mkproblemRdft (by simpa [PosK] using hdp) h1
    rw [decide_eq_false (fun h => hblk p.r0 (by simp) 0 0 (by rw [Ptr.add_zero, Ptr.add_zero]; exact h.symm)), his] at hG1
    obtain ⟨k3, s3⟩ := rest_kosher hk (nb := nb) (cd := ivs * ((nb : ℤ) * ((vl / nb : ℕ) : ℤ))) (rd := ovs * ((nb : ℤ) * ((vl / nb : ℕ) : ℤ)))
      hsz hv htor (fun h => by rw [hkd] at h; cases h) (fun _ => ⟨e3 _, e3 _⟩)
    apply good_need k3
    intro c3 h3
    rw [modify_default] at h3
    obtain ⟨ip2, hG3, hA, hB⟩ := s3 _ _ h3
    apply good_ret
    have piece := Rows.via (h := half2 .HC2R ⟨n, is, os⟩ ρ δ) (d := ⟨nb, ivs, ovs⟩) (e := 0) (inpl := decide (p.r0 = p.cr)) (nd := fl.nd) (F2 := fun x k => ∑ j ∈ range n, rK .HC2R00 n j k * x j)
      (c2hc_rows hdp nb bd ivs δ is)
      (by
        have := hG1.rows
        have hB : (half2 .HC2R ⟨n, is, os⟩ ρ δ).B = fun i : ℕ => (i : ℤ) * ρ := by
          funext t; show zig ρ os t = _; rw [← hcontig, zig_double]
        rw [hB]
        exact this)
      (buf_rowInj hbdn) (by simp)
      (fun x y hxy t ht => sum_congr rfl fun j hj => by rw [hxy j (mem_range.1 hj)])
      (fun x t ht => c2r_of_hc hdp x ρ os δ is t)
    refine rounds hk hnb1 hsz hv htor (f := fun r0 _ cr ci => withBuf fun B st =>
        c1.rdftApply B r0 (forN nb (fun j => Rdft2S.c2hc n (cr + (j : ℤ) * ivs) (ci + (j : ℤ) * ivs) is (B + (j : ℤ) * (bd : ℤ))) st))
      (g := c3.rdft2Apply) ?_ hG3 hA hB ?_
    · rw [hkd, ← hρ, ← hδ]
      refine piece.congr fun I O st => ?_
      simp only [run2, Ptr.add_zero, Ptr.add_add, add_comm δ]
    · intro I O st
      rw [hkd]
      simp only [run2]
      rw [bufLoop_eq hnb1 _ _ _ _ (by simp) (by simp)]
      simp only [Nat.sub_zero, zero_add, Ptr.add_add]
      simp only [e1, e2, e4, add_comm (p.r1 - p.r0 : ℤ), add_comm (p.ci - p.cr : ℤ), add_right_comm]

/-! ### buffered2.c -/

omit [CLib] in
theorem zig_add (a s : ℤ) (c p : ℕ) (hc : c < 2) : zig a s (2 * p + c) = (c : ℤ) * a + (p : ℤ) * s := by
  rw [zig, show (2 * p + c) % 2 = c by omega, show (2 * p + c) / 2 = p by omega]

omit [CLib] in
theorem RowInj.nodup3 {m l : ℕ} {δ b u : ℤ} (h : RowInj (2 * l) m (zig δ u) b) : (offs [(2, δ), (m, b), (l, u)]).Nodup := by
  rw [offs_boxes]
  refine (nodup_boxes _).map_on ?_
  intro x hx y hy he
  simp only [List.map_cons, List.map_nil, mem_boxes] at hx hy he
  obtain ⟨c, x2, hc, hx2, rfl⟩ := box_cons.1 hx
  obtain ⟨v, x3, hv, hx3, rfl⟩ := box_cons.1 hx2
  obtain ⟨k, x4, hk, hx4, rfl⟩ := box_cons.1 hx3
  obtain ⟨c', y2, hc', hy2, rfl⟩ := box_cons.1 hy
  obtain ⟨v', y3, hv', hy3, rfl⟩ := box_cons.1 hy2
  obtain ⟨k', y4, hk', hy4, rfl⟩ := box_cons.1 hy3
  obtain rfl : x4 = [] := List.length_eq_zero_iff.1 (by rw [box_length hx4]; rfl)
  obtain rfl : y4 = [] := List.length_eq_zero_iff.1 (by rw [box_length hy4]; rfl)
  simp only [dot_cons, dot_nil] at he
  obtain ⟨rfl, e⟩ := h v hv (2 * k + c) (by omega) v' hv' (2 * k' + c') (by omega) (by
    rw [zig_add _ _ _ _ hc, zig_add _ _ _ _ hc']; linarith)
  obtain rfl : c = c' := by omega
  obtain rfl : k = k' := by omega
  rfl

omit [CLib] in
theorem mem_offs_rows3 {m l : ℕ} {δ b u x : ℤ} : x ∈ offs [(2, δ), (m, b), (l, u)] ↔ ∃ j < m, ∃ t < 2 * l, x = (j : ℤ) * b + zig δ u t := by
  simp only [mem_offs_cons, mem_offs_nil]
  constructor
  · rintro ⟨c, hc, y, ⟨j, hj, z, ⟨p, hp, w, rfl, rfl⟩, rfl⟩, rfl⟩
    exact ⟨j, hj, 2 * p + c, by omega, by rw [zig_add _ _ _ _ hc]; ring⟩
  · rintro ⟨j, hj, t, ht, rfl⟩
    refine ⟨t % 2, Nat.mod_lt _ (by norm_num), _, ⟨j, hj, _, ⟨t / 2, by omega, 0, rfl, rfl⟩, rfl⟩, ?_⟩
    rw [zig]; ring

omit [CLib] in
/-- a child plan copying a vector of complex rows -/
theorem _root_.FFTW.Spec.GOK.rowsC {m l : ℕ} {a b s u δi δo : ℤ} {nd : Bool} {g : Ptr → Ptr → State → State}
    (h : GOK dftK [] (some [⟨m, a, b⟩, ⟨l, s, u⟩]) δi δo false nd g) :
    Rows (2 * l) (2 * l) (zig δi s) (zig δo u) (fun x t => x t) m a b nd g := by
  intro ho hi I O st bI bO hd
  have eo : outs (locT ℂ δi δo ([] : List (Dim × Unit)) (some [⟨m, a, b⟩, ⟨l, s, u⟩])) = offs [(2, δo), (m, b), (l, u)] := rfl
  have ei : ins (locT ℂ δi δo ([] : List (Dim × Unit)) (some [⟨m, a, b⟩, ⟨l, s, u⟩])) = offs [(2, δi), (m, a), (l, s)] := rfl
  obtain ⟨h1, h2⟩ := h ⟨by rw [eo]; exact ho.nodup3, fun hn => by rw [ei]; exact (hi hn).nodup3, by simp, by simp⟩ I O st
    ⟨bI, bO, by simp, fun _ x hx y hy => by
      rw [ei] at hx; rw [eo] at hy
      obtain ⟨j, hj, i, hi, rfl⟩ := mem_offs_rows3.1 hx
      obtain ⟨j', hj', k, hk, rfl⟩ := mem_offs_rows3.1 hy
      exact hd j hj i hi j' hj' k hk⟩
  refine ⟨h1.next, fun q hq ha hb => h1.mem q hq ?_, ?_⟩
  · rintro (⟨x, hx, rfl⟩ | ⟨hn, x, hx, rfl⟩)
    · rw [eo] at hx
      obtain ⟨j, hj, k, hk, rfl⟩ := mem_offs_rows3.1 hx
      exact ha j hj k hk rfl
    · rw [ei] at hx
      obtain ⟨j, hj, k, hk, rfl⟩ := mem_offs_rows3.1 hx
      exact hb hn j hj k hk rfl
  · intro j hj t ht
    have hmem : ((j : ℤ) * a + ((t / 2 : ℕ) : ℤ) * s, (j : ℤ) * b + ((t / 2 : ℕ) : ℤ) * u) ∈ pairs (some [(⟨m, a, b⟩ : Dim), ⟨l, s, u⟩]) := by
      rw [mem_pairs_cons]
      exact ⟨j, hj, _, mem_pairs1.2 ⟨t / 2, by show t / 2 < l; omega, rfl⟩, rfl⟩
    have := h2 [] ⟨rfl, by simp⟩ _ hmem
    simp only [gSum, gOut, val_c, List.map_nil, List.sum_nil] at this
    have hre := congrArg Complex.re this
    have him := congrArg Complex.im this
    simp only at hre him
    rcases lt_two (Nat.mod_lt t (by norm_num : 2 > 0)) with h0 | h0
    · have e : ∀ δ s : ℤ, zig δ s t = ((t / 2 : ℕ) : ℤ) * s := by intro δ s; rw [zig, h0]; simp
      simp only [e]
      simpa using hre
    · have e : ∀ δ s : ℤ, zig δ s t = δ + ((t / 2 : ℕ) : ℤ) * s := by intro δ s; rw [zig, h0]; simp
      simp only [e]
      rw [show (j : ℤ) * b + (δo + ((t / 2 : ℕ) : ℤ) * u) = δo + (0 + ((j : ℤ) * b + ((t / 2 : ℕ) : ℤ) * u)) by ring, him]
      congr 2; ring

omit [CLib] in
theorem buf_rowInj2 {n m bd : ℕ} (h : n + 2 ≤ bd) {δ : ℤ} (hδ : δ = 1 ∨ δ = -1) : RowInj (2 * (n / 2 + 1)) m (zig δ 2) (bd : ℤ) := by
  intro j _ t ht j' _ t' ht' e
  have key : ∀ t, t < 2 * (n / 2 + 1) → ∃ w : ℕ, zig δ 2 t = (w : ℤ) - 1 ∧ w < n + 2 + 1 ∧
      (δ = 1 → w = t + 1) ∧ (δ = -1 → w = (if t % 2 = 0 then t + 1 else t - 1) ∧ w < n + 2) := by
    intro t ht
    rcases hδ with rfl | rfl
    · refine ⟨t + 1, ?_, by omega, fun _ => rfl, fun h => by norm_num at h⟩
      rw [zig]; push_cast; omega
    · refine ⟨if t % 2 = 0 then t + 1 else t - 1, ?_, by split <;> omega, fun h => by norm_num at h, fun _ => ⟨rfl, by split <;> omega⟩⟩
      rw [zig]; split <;> push_cast <;> omega
  obtain ⟨w, e1, hw, hw1, hw2⟩ := key t ht
  obtain ⟨w', e1', hw', hw1', hw2'⟩ := key t' ht'
  rw [e1, e1'] at e
  have e3 : j * bd + w = j' * bd + w' := by
    have : (j : ℤ) * bd + w = (j' : ℤ) * bd + w' := by linarith
    exact_mod_cast this
  rcases hδ with hδ | hδ
  · rw [hw1 hδ, hw1' hδ] at e3
    have q1 : (bd * j + t) / bd = j := by rw [Nat.mul_add_div (by omega), Nat.div_eq_of_lt (by omega), add_zero]
    have q2 : (bd * j' + t') / bd = j' := by rw [Nat.mul_add_div (by omega), Nat.div_eq_of_lt (by omega), add_zero]
    have hj : j = j' := by rw [← q1, ← q2, mul_comm bd, mul_comm bd]; congr 1; omega
    subst hj
    exact ⟨rfl, by omega⟩
  · obtain ⟨a1, a2⟩ := hw2 hδ
    obtain ⟨b1, b2⟩ := hw2' hδ
    have q1 : (bd * j + w) / bd = j := by rw [Nat.mul_add_div (by omega), Nat.div_eq_of_lt (by omega), add_zero]
    have q2 : (bd * j' + w') / bd = j' := by rw [Nat.mul_add_div (by omega), Nat.div_eq_of_lt (by omega), add_zero]
    have hj : j = j' := by rw [← q1, ← q2, mul_comm bd, mul_comm bd, e3]
    subst hj
    have : w = w' := by omega
    refine ⟨rfl, ?_⟩
    rw [a1, b1] at this
    split_ifs at this <;> omega

theorem buffered2_sound (szR which : ℕ) (taste : Taste) : (Rdft2S.buffered2 szR which taste).Sound := by
  apply rdft2Solver_sound
  intro p fl hk
  obtain ⟨he, hap, hn1, hn0, hvv⟩ := kosher_rdft2 hk
  split
  rotate_left
  · exact good_nada
  rename_i d v hsz hv
  split
  rotate_left
  · exact good_nada
  rename_i vd htor
  split
  rotate_left
  · exact good_nada
  dsimp only
  obtain ⟨n, is, os⟩ := d
  obtain ⟨hvn, hvp⟩ := hvv v hv
  have hvd1 := tornk1_pos htor hvp
  obtain ⟨hvi, hvo⟩ := tornk1_nonneg htor hvn
  obtain ⟨vl, ivs, ovs⟩ := vd
  have hdn := hn1 ⟨n, is, os⟩ (by rw [hsz]; simp)
  have hdp := hn0 ⟨n, is, os⟩ (by rw [hsz]; simp)
  simp only at hvd1 hvi hvo hdn hdp ⊢
  generalize hnb : nbuf szR n vl (maxnbufs.getD which 0) = nb
  have hnb1 : 0 < nb := by rw [← hnb]; exact (nbuf_bounds szR n vl _ hvd1).1
  have hbdn : n + 2 ≤ bufdist (n + 2) vl := bufdist_ge (n + 2) vl
  set bd := bufdist (n + 2) vl with hbd
  set bufs := planBuf [p.r0, p.r1, p.cr, p.ci] with hbufs
  have hblk : ∀ q ∈ [p.r0, p.r1, p.cr, p.ci], ∀ a b : ℤ, q + a ≠ bufs + b := by
    intro q hq a b he
    have h1 := congrArg Ptr.blk he
    have h2 : q.blk = bufs.blk := h1
    have := planBuf_blk hq
    rw [← hbufs, ← h2] at this; exact absurd this (lt_irrefl _)
  obtain ⟨roff, hroff⟩ : ∃ r : ℤ, r = if (p.cr - p.ci : ℤ) > (0 : ℤ) then 1 else 0 := ⟨_, rfl⟩
  rw [← hroff]
  have hro : roff = 0 ∨ roff = 1 := by rw [hroff]; split <;> simp
  clear hroff
  have hδb : (1 - roff - roff = 1) ∨ (1 - roff - roff = -1) := by rcases hro with rfl | rfl <;> simp
  have hsub : (bufs + (1 - roff) - (bufs + roff) : ℤ) = 1 - roff - roff := by
    show bufs.off + (1 - roff) - (bufs.off + roff) = _; ring
  have e0 : roff + (1 - roff - roff) = 1 - roff := by ring
  obtain ⟨ρ, hρ⟩ : ∃ ρ : ℤ, ρ = (p.r1 - p.r0 : ℤ) := ⟨_, rfl⟩
  obtain ⟨δ, hδ⟩ : ∃ δ : ℤ, δ = (p.ci - p.cr : ℤ) := ⟨_, rfl⟩
  have e1 : ∀ s : ℤ, ((vl / nb : ℕ) : ℤ) * (s * (nb : ℤ)) = ((vl / nb * nb : ℕ) : ℤ) * s := by intro s; push_cast; ring
  have e2 : ∀ (i : ℕ) (s : ℤ), (i : ℤ) * (s * (nb : ℤ)) = (i : ℤ) * ((nb : ℤ) * s) := by intro i s; ring
  have e3 : ∀ s : ℤ, s * ((nb : ℤ) * ((vl / nb : ℕ) : ℤ)) = ((vl / nb * nb : ℕ) : ℤ) * s := by intro s; push_cast; ring
  have hnd : (fl.modify { ureset := if p.r0 = p.cr then NO_DESTROY_INPUT else 0 }).nd = if p.r0 = p.cr then false else fl.nd := by
    split
    · exact nd_destroyInput fl
    · exact congrArg Flags.nd (modify_default fl)
  split
  · rename_i hkd
    apply good_need
    · refine kosher_mkproblemRdft2 (by first | exact ⟨(kosher_rdft2_blk hk).1, rfl⟩ | exact ⟨rfl, (kosher_rdft2_blk hk).2⟩ | exact (kosher_rdft2_blk hk)) ?_ ?_ ?_ ?_ ?_
      · simpa [NonNeg] using hdn.1
      · rw [nonNegV_some]; simp only [NonNeg, List.mem_singleton, forall_eq]; exact ⟨hvi, by positivity⟩
      · simpa [Pos] using hdp
      · intro h; exact absurd h (by have := hblk p.r0 (by simp) 0 roff; rwa [Ptr.add_zero] at this)
      · intro _ a _ b _
        rw [hkd]; simp only [in2, out2]
        rw [Ptr.add_add]; exact hblk _ (by simp) _ _
    intro c1 h1
    rw [hnd, hkd] at h1
    have hG1 := sound_mkproblemRdft2 h1
    rw [hsub, decide_eq_false (by have := hblk p.r0 (by simp) 0 roff; rwa [Ptr.add_zero] at this), ← hρ] at hG1
    apply good_need
    · refine kosher_mkproblemDft nonNeg_nil ?_ pos_nil ?_
      · rw [nonNegV_some]; simp only [NonNeg, List.mem_cons, List.not_mem_nil, or_false, forall_eq_or_imp, forall_eq]
        exact ⟨⟨by positivity, hvo⟩, by norm_num, hdn.2⟩
      · intro _ a _ b _
        rw [Ptr.add_add]
        exact (hblk _ (by simp) _ _).symm
    intro c2 h2
    rw [modify_default] at h2
    obtain ⟨hG2, -⟩ := sound_mkproblemDft h2
    rw [hsub, decide_eq_false (fun h => hblk p.cr (by simp) 0 roff (by rw [Ptr.add_zero]; exact h.symm)), ← hδ] at hG2
    obtain ⟨k3, s3⟩ := rest_kosher hk (nb := nb) (rd := ivs * ((nb : ℤ) * ((vl / nb : ℕ) : ℤ))) (cd := ovs * ((nb : ℤ) * ((vl / nb : ℕ) : ℤ)))
      hsz hv htor (fun _ => ⟨e3 _, e3 _⟩) (fun h => by rw [hkd] at h; cases h)
    apply good_need k3
    intro c3 h3
    rw [modify_default] at h3
    obtain ⟨ip2, hG3, hA, hB⟩ := s3 _ _ h3
    apply good_ret
    have piece := Rows.via (h := half2 .R2HC ⟨n, is, os⟩ ρ δ) (d := ⟨nb, ivs, ovs⟩) (e := roff) (inpl := decide (p.r0 = p.cr)) (nd := fl.nd)
      (nc := 2 * (n / 2 + 1)) (C := zig (1 - roff - roff) 2) (bd := (bd : ℤ))
      (HOK.rows hG1) (GOK.rowsC hG2) (buf_rowInj2 hbdn hδb) (by
        intro h
        by_cases e : p.r0 = p.cr
        · right; simp [e]
        · left; simpa [e] using h) (fun x y hxy t ht => hxy t ht)
      (fun x t ht => rfl)
    refine rounds hk hnb1 hsz hv htor (f := fun r0 r1 cr ci => withBuf fun B st =>
        c2.dftApply (B + roff) (B + (1 - roff)) cr ci (c1.rdft2Apply r0 r1 (B + roff) (B + (1 - roff)) st))
      (g := c3.rdft2Apply) ?_ hG3 hA hB ?_
    · rw [hkd, ← hρ, ← hδ]
      refine piece.congr fun I O st => ?_
      simp only [run2, Ptr.add_add, e0]
    · intro I O st
      rw [hkd]
      simp only [run2]
      rw [bufLoop_eq hnb1 _ _ _ _ (by simp) (by simp)]
      simp only [Nat.sub_zero, zero_add, Ptr.add_add]
      simp only [e1, e2, add_comm (p.r1 - p.r0 : ℤ), add_comm (p.ci - p.cr : ℤ), add_right_comm]
  · rename_i hkd
    apply good_need
    · refine kosher_mkproblemRdft2 (by first | exact ⟨(kosher_rdft2_blk hk).1, rfl⟩ | exact ⟨rfl, (kosher_rdft2_blk hk).2⟩ | exact (kosher_rdft2_blk hk)) ?_ ?_ ?_ ?_ ?_
      · simpa [NonNeg] using hdn.2
      · rw [nonNegV_some]; simp only [NonNeg, List.mem_singleton, forall_eq]; exact ⟨by positivity, hvo⟩
      · simpa [Pos] using hdp
      · intro h; exact absurd h (by have := hblk p.r0 (by simp) 0 roff; rwa [Ptr.add_zero] at this)
      · intro _ a _ b _
        rw [hkd]; simp only [in2, out2]
        rw [Ptr.add_add]; exact (hblk _ (by simp) _ _).symm
    intro c1 h1
    rw [nd_destroyInput, hkd] at h1
    have hG1 := sound_mkproblemRdft2 h1
    rw [hsub, decide_eq_false (by have := hblk p.r0 (by simp) 0 roff; rwa [Ptr.add_zero] at this), ← hρ] at hG1
    apply good_need
    · refine kosher_mkproblemDft nonNeg_nil ?_ pos_nil ?_
      · rw [nonNegV_some]; simp only [NonNeg, List.mem_cons, List.not_mem_nil, or_false, forall_eq_or_imp, forall_eq]
        exact ⟨⟨hvi, by positivity⟩, hdn.1, by norm_num⟩
      · intro _ a _ b _
        rw [Ptr.add_add]
        exact hblk _ (by simp) _ _
    intro c2 h2
    rw [modify_default] at h2
    obtain ⟨hG2, -⟩ := sound_mkproblemDft h2
    rw [hsub, decide_eq_false (fun h => hblk p.cr (by simp) 0 roff (by rw [Ptr.add_zero]; exact h)), ← hδ] at hG2
    obtain ⟨k3, s3⟩ := rest_kosher hk (nb := nb) (cd := ivs * ((nb : ℤ) * ((vl / nb : ℕ) : ℤ))) (rd := ovs * ((nb : ℤ) * ((vl / nb : ℕ) : ℤ)))
      hsz hv htor (fun h => by rw [hkd] at h; cases h) (fun _ => ⟨e3 _, e3 _⟩)
    apply good_need k3
    intro c3 h3
    rw [modify_default] at h3
    obtain ⟨ip2, hG3, hA, hB⟩ := s3 _ _ h3
    apply good_ret
    have piece := Rows.via (h := half2 .HC2R ⟨n, is, os⟩ ρ δ) (d := ⟨nb, ivs, ovs⟩) (e := roff) (inpl := decide (p.r0 = p.cr)) (nd := fl.nd)
      (nc := 2 * (n / 2 + 1)) (C := zig (1 - roff - roff) 2) (bd := (bd : ℤ))
      (GOK.rowsC hG2) (HOK.rows hG1) (buf_rowInj2 hbdn hδb) (fun h => Or.inl h)
      (fun x y hxy t ht => congrArg _ (sum_congr rfl fun i hi => by rw [hxy i (mem_range.1 hi)]))
      (fun x t ht => rfl)
    refine rounds hk hnb1 hsz hv htor (f := fun r0 r1 cr ci => withBuf fun B st =>
        c1.rdft2Apply r0 r1 (B + roff) (B + (1 - roff)) (c2.dftApply cr ci (B + roff) (B + (1 - roff)) st))
      (g := c3.rdft2Apply) ?_ hG3 hA hB ?_
    · rw [hkd, ← hρ, ← hδ]
      refine piece.congr fun I O st => ?_
      simp only [run2, Ptr.add_add, e0]
    · intro I O st
      rw [hkd]
      simp only [run2]
      rw [bufLoop_eq hnb1 _ _ _ _ (by simp) (by simp)]
      simp only [Nat.sub_zero, zero_add, Ptr.add_add]
      simp only [e1, e2, add_comm (p.r1 - p.r0 : ℤ), add_comm (p.ci - p.cr : ℤ), add_right_comm]

end FFTW
