import Verif.Model.MpiRank1
import Verif.Proofs.MpiDft5
import Verif.Proofs.DftwGenericbuf

/-! loops of `mpi/dft-rank1.c` -/

namespace FFTW.Mpi
open Tensor Spec RdftS
variable [CLib]

theorem cval_congr {bwd : Bool} {m m' : Ptr → ℝ} {P : Ptr} {x : ℕ} (h : ∀ c < 2, m (P + ((x * 2 + c : ℕ) : ℤ)) = m' (P + ((x * 2 + c : ℕ) : ℤ))) :
    cval bwd m P x = cval bwd m' P x := by
  have h0 := h 0 (by omega)
  have h1 := h 1 (by omega)
  unfold cval
  rw [val_c, val_c]
  simp only [Ptr.add_add]
  cases bwd with
  | true =>
    simp only [roff, ioff, if_true]
    rw [show (1 : ℤ) + ((x * 2 : ℕ) : ℤ) = ((x * 2 + 1 : ℕ) : ℤ) by push_cast; ring, show (1 : ℤ) + (0 - 1 + ((x * 2 : ℕ) : ℤ)) = ((x * 2 + 0 : ℕ) : ℤ) by push_cast; ring, h0, h1]
  | false =>
    simp only [roff, ioff, Bool.false_eq_true, if_false]
    rw [show (0 : ℤ) + ((x * 2 : ℕ) : ℤ) = ((x * 2 + 0 : ℕ) : ℤ) by push_cast; ring, show (0 : ℤ) + (1 - 0 + ((x * 2 : ℕ) : ℤ)) = ((x * 2 + 1 : ℕ) : ℤ) by push_cast; ring, h0, h1]

theorem cval_shift (bwd : Bool) (m : Ptr → ℝ) (P : Ptr) (a x : ℕ) : cval bwd m (P + ((a * 2 : ℕ) : ℤ)) x = cval bwd m P (a + x) := by
  unfold cval
  rw [val_c, val_c]
  simp only [Ptr.add_add]
  congr 3 <;> · push_cast; ring

/-- a loop over rows of `w` complex numbers -/
theorem row_loop {bwd nd : Bool} {w : ℕ} {P Q : Ptr} {f : ℕ → State → State} {F : ℕ → ℕ → (ℕ → ℂ) → ℂ} (hF : ∀ x k a b, k < w → (∀ j < w, a j = b j) → F x k a = F x k b) {st : State}
    (bP : P.blk < st.next) (bQ : Q.blk < st.next) : ∀ N : ℕ, (P = Q ∨ Far P Q (2 * (N * w))) →
    (∀ x < N, ∀ st' : State, st.next ≤ st'.next → Frame st' (f x st') (PW nd (P + ((x * w * 2 : ℕ) : ℤ)) (Q + ((x * w * 2 : ℕ) : ℤ)) (2 * w)) ∧
      ∀ k < w, cval bwd (f x st').mem Q (x * w + k) = F x k fun j => cval bwd st'.mem P (x * w + j)) →
    Frame st (forN N f st) (PW nd P Q (2 * (N * w))) ∧ ∀ x < N, ∀ k < w, cval bwd (forN N f st).mem Q (x * w + k) = F x k fun j => cval bwd st.mem P (x * w + j) := by
  intro N
  induction N with
  | zero => intro _ _; exact ⟨Frame.refl _ _, fun x hx => absurd hx (by omega)⟩
  | succ N ih =>
    intro hPQ hf
    have eN : (N + 1) * w = N * w + w := by ring
    obtain ⟨i1, i2⟩ := ih (hPQ.imp id fun h => h.mono (by rw [eN]; omega)) fun x hx => hf x (by omega)
    obtain ⟨g1, g2⟩ := hf N (by omega) (forN N f st) i1.next
    rw [forN_succ]
    -- rows of `P` not yet reached
    have hProw : ∀ y, N * w * 2 ≤ y → y < 2 * ((N + 1) * w) → (forN N f st).mem (P + (y : ℤ)) = st.mem (P + (y : ℤ)) := by
      intro y hy hy2
      refine i1.mem _ (by simpa using bP) ?_
      rintro (⟨z, hz, e⟩ | ⟨_, z, hz, e⟩)
      · rcases hPQ with rfl | h
        · have := (ptr_add_right_inj P).1 e
          omega
        · exact h y hy2 z (by rw [eN]; omega) e
      · have := (ptr_add_right_inj P).1 e
        omega
    -- rows of `Q` already done
    have hQrow : ∀ y < N * w * 2, (f N (forN N f st)).mem (Q + (y : ℤ)) = (forN N f st).mem (Q + (y : ℤ)) := by
      intro y hy
      refine g1.mem _ (lt_of_lt_of_le (by simpa using bQ) i1.next) ?_
      rintro (h | ⟨_, h⟩)
      · obtain ⟨z, hz, hz2, e⟩ := h.shift
        have := (ptr_add_right_inj Q).1 e
        omega
      · obtain ⟨z, hz, hz2, e⟩ := h.shift
        rcases hPQ with rfl | h
        · have := (ptr_add_right_inj P).1 e
          omega
        · exact h z (by rw [eN]; omega) y (by rw [eN]; omega) e.symm
    refine ⟨i1.trans g1 (fun q _ h => h.mono (by rw [eN]; omega)) ?_, ?_⟩
    · rintro q _ (h | ⟨hn, h⟩)
      · obtain ⟨z, hz, hz2, e⟩ := h.shift
        exact Or.inl ⟨z, by rw [eN]; omega, e⟩
      · obtain ⟨z, hz, hz2, e⟩ := h.shift
        exact Or.inr ⟨hn, z, by rw [eN]; omega, e⟩
    · intro x hx k hk
      by_cases hxN : x = N
      · subst hxN
        rw [g2 k hk]
        refine hF x k _ _ hk fun j hj => cval_congr fun c hc => hProw _ (by omega) (by rw [eN]; omega)
      · have : x * w + w ≤ N * w := by
          have : (x + 1) * w ≤ N * w := Nat.mul_le_mul_right _ (by omega)
          rwa [Nat.add_mul, Nat.one_mul] at this
        rw [← i2 x (by omega) k hk]
        exact cval_congr fun c hc => hQrow _ (by omega)

/-- multiplication of complex numbers, in place -/
theorem twiddle1 {cexp : ℕ → ℤ → ℝ × ℝ} (hc : ExactCexp cexp) {n k : ℕ} (hk : k < n) (bwd nd : Bool) (x : Ptr) (st : State) :
    let c := DftS.trigRotate cexp n (k : ℤ) (st.mem (x + roff bwd)) (st.mem (x + ioff bwd))
    Frame st ((st.set (x + roff bwd) c.1).set (x + ioff bwd) c.2) (PW nd x x (2 * 1)) ∧
      cval bwd ((st.set (x + roff bwd) c.1).set (x + ioff bwd) c.2).mem x 0 = ω n ^ k * cval bwd st.mem x 0 := by
  intro c
  have hne : x + roff bwd ≠ x + ioff bwd := by
    intro e
    have := (ptr_add_right_inj x).1 e
    cases bwd <;> simp [roff, ioff] at this
  have ev : ∀ m, cval bwd m x 0 = ⟨m (x + roff bwd), m (x + ioff bwd)⟩ := by
    intro m
    unfold cval
    rw [val_c]
    simp only [Ptr.add_add, Nat.zero_mul, Nat.cast_zero, add_zero, add_sub_cancel]
  constructor
  · constructor
    · exact le_rfl
    · intro q _ hq
      have h1 : q ≠ x + roff bwd := fun e => hq (Or.inl ⟨(roff bwd).toNat, by cases bwd <;> decide, by rw [e]; cases bwd <;> rfl⟩)
      have h2 : q ≠ x + ioff bwd := fun e => hq (Or.inl ⟨(ioff bwd).toNat, by cases bwd <;> decide, by rw [e]; cases bwd <;> rfl⟩)
      simp [State.set, h1, h2]
  · rw [ev, ev, ← DftS.rotate_ω hc hk]
    simp [State.set, hne, c]

/-- `do_twiddle` -/
theorem doTwiddle_spec {cexp : ℕ → ℤ → ℝ × ℝ} (hc : ExactCexp cexp) {n ir m vn : ℕ} (hn : ∀ im < m, ir * im < n) (bwd nd : Bool) (P : Ptr) (st : State) (bP : P.blk < st.next) :
    Frame st (doTwiddle cexp bwd n ir m vn P st) (PW nd P P (2 * (m * vn))) ∧
      ∀ i < m, ∀ v < vn, cval bwd (doTwiddle cexp bwd n ir m vn P st).mem P (i * vn + v) = ω n ^ (ir * i) * cval bwd st.mem P (i * vn + v) := by
  unfold doTwiddle
  refine row_loop (F := fun i k a => ω n ^ (ir * i) * a k) (w := vn) (fun x k a b hk h => by rw [h k hk]) bP bP m (Or.inl rfl) ?_
  intro im him st1 hst1
  have bP1 : (P + ((im * vn * 2 : ℕ) : ℤ)).blk < st1.next := lt_of_lt_of_le (by simpa using bP) hst1
  have key := row_loop (bwd := bwd) (nd := nd) (w := 1) (P := P + ((im * vn * 2 : ℕ) : ℤ)) (Q := P + ((im * vn * 2 : ℕ) : ℤ)) (st := st1)
    (F := fun _ k a => ω n ^ (ir * im) * a k)
    (f := fun iv st =>
      ((st.set (P + (((im * vn + iv) * 2 : ℕ) : ℤ) + roff bwd) (DftS.trigRotate cexp n ((ir * im : ℕ) : ℤ) (st.mem (P + (((im * vn + iv) * 2 : ℕ) : ℤ) + roff bwd)) (st.mem (P + (((im * vn + iv) * 2 : ℕ) : ℤ) + ioff bwd))).1).set
        (P + (((im * vn + iv) * 2 : ℕ) : ℤ) + ioff bwd) (DftS.trigRotate cexp n ((ir * im : ℕ) : ℤ) (st.mem (P + (((im * vn + iv) * 2 : ℕ) : ℤ) + roff bwd)) (st.mem (P + (((im * vn + iv) * 2 : ℕ) : ℤ) + ioff bwd))).2))
    (fun x k a b hk h => by rw [h k hk]) bP1 bP1 vn (Or.inl rfl) (by
      intro iv hiv st2 hst2
      have e : P + ((im * vn * 2 : ℕ) : ℤ) + ((iv * 1 * 2 : ℕ) : ℤ) = P + (((im * vn + iv) * 2 : ℕ) : ℤ) := by
        rw [Ptr.add_add, ← Nat.cast_add]; congr 2; ring
      obtain ⟨t1, t2⟩ := twiddle1 hc (hn im him) bwd nd (P + (((im * vn + iv) * 2 : ℕ) : ℤ)) st2
      rw [e]
      refine ⟨t1, fun k hk => ?_⟩
      obtain rfl : k = 0 := by omega
      have e2 : ∀ m, cval bwd m (P + ((im * vn * 2 : ℕ) : ℤ)) (iv * 1 + 0) = cval bwd m (P + (((im * vn + iv) * 2 : ℕ) : ℤ)) 0 := by
        intro m
        rw [cval_shift, cval_shift]
        congr 1; ring
      simp only [e2]
      exact t2)
  refine ⟨?_, fun k hk => ?_⟩
  · have := key.1
    rwa [Nat.mul_one] at this
  · have := key.2 k hk 0 (by omega)
    simp only [Nat.mul_one, Nat.add_zero] at this
    rw [cval_shift, cval_shift] at this
    exact this

theorem fits_row (r s : ℕ) : Fits (zst ([(r, s)] ++ [(s, 1)])) (r * s) := by
  simpa [rowsL] using fits_whole s [r]

/-- a DFT of one row -/
theorem row_dft {nd bwd : Bool} {r vn : ℕ} {P0 Q0 : Ptr} {c : Plan} (h : FFTW.Sound nd (dftPr bwd [eqDim r (vn * 2)] [eqDim vn 2] P0 Q0) c)
    {P Q : Ptr} {st : State} (bP : P.blk < st.next) (bQ : Q.blk < st.next) (hs : P0 = Q0 → P = Q) (hd : P0 ≠ Q0 → Far P Q (2 * (r * vn))) :
    Frame st (applyDft bwd c P Q st) (PW nd P Q (2 * (r * vn))) ∧
      ∀ k < r, ∀ v < vn, cval bwd (applyDft bwd c P Q st).mem Q (k * vn + v) = ∑ j ∈ Finset.range r, ω r ^ (j * k) * cval bwd st.mem P (j * vn + v) := by
  obtain ⟨h1, h2⟩ := local_dft (a := [(r, vn)]) (b := [(vn, 1)]) (fits_row r vn) h bP bQ hs hd
  refine ⟨h1, fun k hk v hv => ?_⟩
  have := h2 [k] (index1 hk) [v] (index1 hv)
  simp only [lin, Nat.add_zero, Nat.mul_one] at this
  exact this

theorem Far.shift {P Q : Ptr} {n a m : ℕ} (h : Far P Q n) (hm : a + m ≤ n) : Far (P + (a : ℤ)) (Q + (a : ℤ)) m := by
  intro x hx y hy
  rw [Ptr.add_add, Ptr.add_add, ← Nat.cast_add, ← Nat.cast_add]
  exact h _ (by omega) _ (by omega)

theorem row_le {x N w : ℕ} (h : x < N) : 2 * (x * w) + 2 * w ≤ 2 * (N * w) := by
  have : (x + 1) * w ≤ N * w := Nat.mul_le_mul_right _ h
  rw [Nat.add_mul, Nat.one_mul] at this
  omega

theorem loopFirst_spec {cexp : ℕ → ℤ → ℝ × ℝ} (hc : ExactCexp cexp) {nd bwd : Bool} {n r vn xmin N : ℕ} (hn : ∀ x < N, ∀ im < r, (xmin + x) * im < n)
    {P0 Q0 : Ptr} {c : Plan} (h : FFTW.Sound nd (dftPr bwd [eqDim r (vn * 2)] [eqDim vn 2] P0 Q0) c)
    {P Q : Ptr} {st : State} (bP : P.blk < st.next) (bQ : Q.blk < st.next) (hs : P0 = Q0 → P = Q) (hd : P0 ≠ Q0 → Far P Q (2 * (N * (r * vn)))) (hnd : nd = true → P = Q) :
    Frame st (loopFirst cexp bwd n r vn xmin N c P Q st) (PW nd P Q (2 * (N * (r * vn)))) ∧
      ∀ x < N, ∀ k < r, ∀ v < vn, cval bwd (loopFirst cexp bwd n r vn xmin N c P Q st).mem Q (x * (r * vn) + (k * vn + v)) =
        ∑ j ∈ Finset.range r, ω r ^ (j * k) * (ω n ^ ((xmin + x) * j) * cval bwd st.mem P (x * (r * vn) + (j * vn + v))) := by
  unfold loopFirst
  have hPQ : P = Q ∨ Far P Q (2 * (N * (r * vn))) := by
    by_cases e : P0 = Q0
    · exact Or.inl (hs e)
    · exact Or.inr (hd e)
  have key := row_loop (bwd := bwd) (nd := nd) (w := r * vn) (st := st)
    (F := fun x κ a => ∑ j ∈ Finset.range r, ω r ^ (j * (κ / vn)) * (ω n ^ ((xmin + x) * j) * a (j * vn + κ % vn)))
    (f := fun x st => applyDft bwd c (P + ((x * (r * vn * 2) : ℕ) : ℤ)) (Q + ((x * (r * vn * 2) : ℕ) : ℤ)) (doTwiddle cexp bwd n (xmin + x) r vn (P + ((x * (r * vn * 2) : ℕ) : ℤ)) st))
    (fun x k a b hk h => by
      refine Finset.sum_congr rfl fun j hj => ?_
      have hv : 0 < vn := by
        rcases Nat.eq_zero_or_pos vn with h0 | h0
        · rw [h0] at hk; omega
        · exact h0
      rw [h _ (lin_lt (Finset.mem_range.1 hj) (Nat.mod_lt _ hv))]) bP bQ N hPQ ?_
  · refine ⟨key.1, fun x hx k hk v hv => ?_⟩
    have := key.2 x hx (k * vn + v) (lin_lt hk hv)
    have hv0 : 0 < vn := by omega
    rw [show (k * vn + v) / vn = k by rw [Nat.add_comm, Nat.add_mul_div_right _ _ hv0, Nat.div_eq_of_lt hv, Nat.zero_add],
      show (k * vn + v) % vn = v by rw [Nat.add_comm, Nat.add_mul_mod_self_right, Nat.mod_eq_of_lt hv]] at this
    exact this
  · intro x hx st1 hst1
    have e : x * (r * vn * 2) = x * (r * vn) * 2 := by ring
    simp only [e]
    have bP1 : (P + ((x * (r * vn) * 2 : ℕ) : ℤ)).blk < st1.next := lt_of_lt_of_le (by simpa using bP) hst1
    have bQ1 : (Q + ((x * (r * vn) * 2 : ℕ) : ℤ)).blk < st1.next := lt_of_lt_of_le (by simpa using bQ) hst1
    obtain ⟨t1, t2⟩ := doTwiddle_spec (vn := vn) hc (hn x hx) bwd nd (P + ((x * (r * vn) * 2 : ℕ) : ℤ)) st1 bP1
    obtain ⟨g1, g2⟩ := row_dft h (lt_of_lt_of_le bP1 t1.next) (lt_of_lt_of_le bQ1 t1.next) (fun e => by rw [hs e]) (fun e => (hd e).shift (by have := row_le (w := r * vn) hx; omega))
    refine ⟨t1.trans g1 ?_ (fun _ _ h => h), fun κ hκ => ?_⟩
    · rintro q _ (hq | ⟨_, hq⟩)
      · cases nd with
        | true => rw [hnd rfl] at hq; exact Or.inl hq
        | false => exact Or.inr ⟨rfl, hq⟩
      · cases nd with
        | true => rw [hnd rfl] at hq; exact Or.inl hq
        | false => exact Or.inr ⟨rfl, hq⟩
    · have hv : 0 < vn := by
        rcases Nat.eq_zero_or_pos vn with h0 | h0
        · rw [h0] at hκ; omega
        · exact h0
      have hk : κ / vn < r := Nat.div_lt_of_lt_mul (by rwa [Nat.mul_comm])
      have := g2 (κ / vn) hk (κ % vn) (Nat.mod_lt _ hv)
      rw [Nat.mul_comm (κ / vn), Nat.div_add_mod, cval_shift] at this
      rw [this]
      refine Finset.sum_congr rfl fun j hj => ?_
      rw [t2 j (Finset.mem_range.1 hj) (κ % vn) (Nat.mod_lt _ hv), cval_shift]

theorem loopLast_spec {cexp : ℕ → ℤ → ℝ × ℝ} (hc : ExactCexp cexp) {nd bwd : Bool} {n r vn xmin N : ℕ} (hn : ∀ x < N, ∀ im < r, (xmin + x) * im < n)
    {P0 Q0 : Ptr} {c : Plan} (h : FFTW.Sound nd (dftPr bwd [eqDim r (vn * 2)] [eqDim vn 2] P0 Q0) c)
    {P Q : Ptr} {st : State} (bP : P.blk < st.next) (bQ : Q.blk < st.next) (hs : P0 = Q0 → P = Q) (hd : P0 ≠ Q0 → Far P Q (2 * (N * (r * vn)))) :
    Frame st (loopLast cexp bwd n r vn xmin N c P Q st) (PW nd P Q (2 * (N * (r * vn)))) ∧
      ∀ x < N, ∀ k < r, ∀ v < vn, cval bwd (loopLast cexp bwd n r vn xmin N c P Q st).mem Q (x * (r * vn) + (k * vn + v)) =
        ω n ^ ((xmin + x) * k) * ∑ j ∈ Finset.range r, ω r ^ (j * k) * cval bwd st.mem P (x * (r * vn) + (j * vn + v)) := by
  unfold loopLast
  have hPQ : P = Q ∨ Far P Q (2 * (N * (r * vn))) := by
    by_cases e : P0 = Q0
    · exact Or.inl (hs e)
    · exact Or.inr (hd e)
  have key := row_loop (bwd := bwd) (nd := nd) (w := r * vn) (st := st)
    (F := fun x κ a => ω n ^ ((xmin + x) * (κ / vn)) * ∑ j ∈ Finset.range r, ω r ^ (j * (κ / vn)) * a (j * vn + κ % vn))
    (f := fun x st => doTwiddle cexp bwd n (xmin + x) r vn (Q + ((x * (r * vn * 2) : ℕ) : ℤ)) (applyDft bwd c (P + ((x * (r * vn * 2) : ℕ) : ℤ)) (Q + ((x * (r * vn * 2) : ℕ) : ℤ)) st))
    (fun x k a b hk h => by
      congr 1
      refine Finset.sum_congr rfl fun j hj => ?_
      have hv : 0 < vn := by
        rcases Nat.eq_zero_or_pos vn with h0 | h0
        · rw [h0] at hk; omega
        · exact h0
      rw [h _ (lin_lt (Finset.mem_range.1 hj) (Nat.mod_lt _ hv))]) bP bQ N hPQ ?_
  · refine ⟨key.1, fun x hx k hk v hv => ?_⟩
    have := key.2 x hx (k * vn + v) (lin_lt hk hv)
    have hv0 : 0 < vn := by omega
    rw [show (k * vn + v) / vn = k by rw [Nat.add_comm, Nat.add_mul_div_right _ _ hv0, Nat.div_eq_of_lt hv, Nat.zero_add],
      show (k * vn + v) % vn = v by rw [Nat.add_comm, Nat.add_mul_mod_self_right, Nat.mod_eq_of_lt hv]] at this
    exact this
  · intro x hx st1 hst1
    have e : x * (r * vn * 2) = x * (r * vn) * 2 := by ring
    simp only [e]
    have bP1 : (P + ((x * (r * vn) * 2 : ℕ) : ℤ)).blk < st1.next := lt_of_lt_of_le (by simpa using bP) hst1
    have bQ1 : (Q + ((x * (r * vn) * 2 : ℕ) : ℤ)).blk < st1.next := lt_of_lt_of_le (by simpa using bQ) hst1
    obtain ⟨g1, g2⟩ := row_dft h bP1 bQ1 (fun e => by rw [hs e]) (fun e => (hd e).shift (by have := row_le (w := r * vn) hx; omega))
    obtain ⟨t1, t2⟩ := doTwiddle_spec (vn := vn) hc (hn x hx) bwd nd (Q + ((x * (r * vn) * 2 : ℕ) : ℤ))
      (applyDft bwd c (P + ((x * (r * vn) * 2 : ℕ) : ℤ)) (Q + ((x * (r * vn) * 2 : ℕ) : ℤ)) st1) (lt_of_lt_of_le bQ1 g1.next)
    refine ⟨g1.trans t1 (fun _ _ h => h) ?_, fun κ hκ => ?_⟩
    · rintro q _ (hq | ⟨_, hq⟩)
      · exact Or.inl hq
      · exact Or.inl hq
    · have hv : 0 < vn := by
        rcases Nat.eq_zero_or_pos vn with h0 | h0
        · rw [h0] at hκ; omega
        · exact h0
      have hk : κ / vn < r := Nat.div_lt_of_lt_mul (by rwa [Nat.mul_comm])
      have := t2 (κ / vn) hk (κ % vn) (Nat.mod_lt _ hv)
      rw [g2 (κ / vn) hk (κ % vn) (Nat.mod_lt _ hv)] at this
      rw [Nat.mul_comm (κ / vn) vn, Nat.div_add_mod, cval_shift] at this
      rw [this]
      congr 1
      refine Finset.sum_congr rfl fun j hj => ?_
      rw [cval_shift]

end FFTW.Mpi
