import Verif.Proofs.Tr3Gcd

/-!
# rdft/vrank3-transpose.c: the cut algorithm
-/

namespace FFTW.RdftS
open Tensor Spec DftS

/-- moving rows of length `c` from distance `S` to distance `c`, in ascending order -/
theorem rowsUp {r c S : ℕ} (hS : c ≤ S) (I : Ptr) (st : State) (f : ℕ → State → State)
    (hf : ∀ i s, f i s = memcpy c (I + ((S * i : ℕ) : ℤ)) (I + ((c * i : ℕ) : ℤ)) s) :
    (forN r f st).next = st.next ∧
    (∀ i < r, ∀ w < c, (forN r f st).mem (I + ((c * i + w : ℕ) : ℤ)) = st.mem (I + ((S * i + w : ℕ) : ℤ))) ∧
    ∀ q : Ptr, (∀ w < c * r, q ≠ I + (w : ℤ)) → (forN r f st).mem q = st.mem q := by
  refine forN_inv (P := fun r s => s.next = st.next ∧ (∀ i < r, ∀ w < c, s.mem (I + ((c * i + w : ℕ) : ℤ)) = st.mem (I + ((S * i + w : ℕ) : ℤ))) ∧
    ∀ q : Ptr, (∀ w < c * r, q ≠ I + (w : ℤ)) → s.mem q = st.mem q) ?_ ?_
  · exact ⟨rfl, fun i hi => absurd hi (by omega), fun _ _ => rfl⟩
  · rintro j _ s ⟨h1, h2, h3⟩
    rw [hf]
    refine ⟨by rw [memcpy_next, h1], ?_, ?_⟩
    · intro i hi w hw
      by_cases e : i = j
      · subst e
        rw [← ptr_nat, memcpy_in hw, ptr_nat]
        refine h3 _ fun w' hw' e => ?_
        rw [ptr_nat_inj] at e
        have : c * i ≤ S * i := Nat.mul_le_mul_right _ hS
        omega
      · rw [memcpy_out, h2 i (by omega) w hw]
        intro w' hw' e'
        rw [ptr_nat, ptr_nat_inj, Nat.mul_comm c, Nat.mul_comm c] at e'
        exact e (radix hw hw' e').1
    · intro q hq
      have e : c * (j + 1) = c * j + c := by ring
      rw [memcpy_out, h3 q fun w hw => hq w (by omega)]
      intro w hw
      rw [ptr_nat]
      exact hq _ (by omega)

/-- moving rows from distance `s` to distance `C`, in descending order; `C` elements each time -/
theorem rowsDown {r s C : ℕ} (hS : s ≤ C) (I : Ptr) (st : State) (f : ℕ → State → State)
    (hf : ∀ i σ, f i σ = memcpy C (I + ((s * (r - 1 - i) : ℕ) : ℤ)) (I + ((C * (r - 1 - i) : ℕ) : ℤ)) σ) :
    (forN r f st).next = st.next ∧
    (∀ i < r, ∀ w < s, (forN r f st).mem (I + ((C * i + w : ℕ) : ℤ)) = st.mem (I + ((s * i + w : ℕ) : ℤ))) ∧
    ∀ q : Ptr, (∀ w < C * r, q ≠ I + (w : ℤ)) → (forN r f st).mem q = st.mem q := by
  have key := forN_inv (P := fun j σ => σ.next = st.next ∧ (∀ i < r, r ≤ i + j → ∀ w < s, σ.mem (I + ((C * i + w : ℕ) : ℤ)) = st.mem (I + ((s * i + w : ℕ) : ℤ))) ∧
    ∀ q : Ptr, (∀ w < C * r, C * (r - j) ≤ w → q ≠ I + (w : ℤ)) → σ.mem q = st.mem q) (n := r) (f := f) (st := st) ?_ ?_
  · obtain ⟨k1, k2, k3⟩ := key
    exact ⟨k1, fun i hi w hw => k2 i hi (by omega) w hw, fun q hq => k3 q fun w hw _ => hq w hw⟩
  · exact ⟨rfl, fun i hi h => absurd hi (by omega), fun _ _ => rfl⟩
  · rintro j hj σ ⟨h1, h2, h3⟩
    rw [hf]
    obtain ⟨a, ha⟩ : ∃ a, a = r - 1 - j := ⟨_, rfl⟩
    rw [← ha]
    have hr : r - j = a + 1 := by omega
    have e1 : C * (a + 1) = C * a + C := by ring
    have e2 : s * (a + 1) = s * a + s := by ring
    have e3 : s * (a + 1) ≤ C * (a + 1) := Nat.mul_le_mul_right _ hS
    have e4 : C * (a + 1) ≤ C * r := Nat.mul_le_mul_left _ (by omega)
    refine ⟨by rw [memcpy_next, h1], ?_, ?_⟩
    · intro i hi hij w hw
      by_cases e : i = a
      · subst e
        rw [← ptr_nat, memcpy_in (by omega), ptr_nat]
        refine h3 _ fun w' _ hw' e => ?_
        rw [ptr_nat_inj] at e
        rw [hr] at hw'
        omega
      · rw [memcpy_out, h2 i hi (by omega) w hw]
        intro w' hw' e'
        rw [ptr_nat, ptr_nat_inj, Nat.mul_comm C, Nat.mul_comm C] at e'
        exact e (radix (by omega) hw' e').1
    · intro q hq
      have hra : r - (j + 1) = a := by omega
      rw [hra] at hq
      rw [memcpy_out, h3 q fun w hw hw' => hq w hw (by rw [hr] at hw'; omega)]
      intro w hw
      rw [ptr_nat]
      exact hq _ (by omega) (by omega)

/-- copying rows from a buffer into the array -/
theorem rowsPut {r c C r0 : ℕ} (hC : c ≤ C) (I b : Ptr) (hb : b.blk ≠ I.blk) (st : State) (f : ℕ → State → State)
    (hf : ∀ i s, f i s = memcpy c (b + ((i * c : ℕ) : ℤ)) (I + (((r0 + i) * C : ℕ) : ℤ)) s) :
    (forN r f st).next = st.next ∧
    (∀ i < r, ∀ w < c, (forN r f st).mem (I + (((r0 + i) * C + w : ℕ) : ℤ)) = st.mem (b + ((i * c + w : ℕ) : ℤ))) ∧
    ∀ q : Ptr, (∀ i < r, ∀ w < c, q ≠ I + (((r0 + i) * C + w : ℕ) : ℤ)) → (forN r f st).mem q = st.mem q := by
  refine forN_inv (P := fun r s => s.next = st.next ∧ (∀ i < r, ∀ w < c, s.mem (I + (((r0 + i) * C + w : ℕ) : ℤ)) = st.mem (b + ((i * c + w : ℕ) : ℤ))) ∧
    ∀ q : Ptr, (∀ i < r, ∀ w < c, q ≠ I + (((r0 + i) * C + w : ℕ) : ℤ)) → s.mem q = st.mem q) ?_ ?_
  · exact ⟨rfl, fun i hi => absurd hi (by omega), fun _ _ => rfl⟩
  · rintro j _ s ⟨h1, h2, h3⟩
    rw [hf]
    refine ⟨by rw [memcpy_next, h1], ?_, ?_⟩
    · intro i hi w hw
      by_cases e : i = j
      · subst e
        rw [← ptr_nat, memcpy_in hw, ptr_nat]
        exact h3 _ fun _ _ _ _ => ptr_ne_blk hb
      · rw [memcpy_out, h2 i (by omega) w hw]
        intro w' hw' e'
        rw [ptr_nat, ptr_nat_inj] at e'
        have := (radix (by omega) (by omega) e').1
        omega
    · intro q hq
      rw [memcpy_out, h3 q fun i hi => hq i (by omega)]
      intro w hw
      rw [ptr_nat]
      exact hq j (by omega) w hw

theorem applyCut_seg {n m nc mc vl : ℕ} {nd1 nd2 nd3 : Bool} {cld1 cld2 cld3 : Plan} (hnc : nc ≤ n) (hmc : mc ≤ m)
    (h1 : m > mc → GOK rK [] (some [⟨nc, ((m * vl : ℕ) : ℤ), ((vl : ℕ) : ℤ)⟩, ⟨m - mc, ((vl : ℕ) : ℤ), ((nc * vl : ℕ) : ℤ)⟩, ⟨vl, 1, 1⟩]) 0 0 false nd1 cld1.rdftApply)
    (h2 : GOK rK [] (some (T3 nc mc vl)) 0 0 true nd2 cld2.rdftApply)
    (h2e : ins (locT ℝ 0 0 ([] : List (Dim × RKind)) (some (T3 nc mc vl))) = outs (locT ℝ 0 0 ([] : List (Dim × RKind)) (some (T3 nc mc vl))))
    (h3 : n > nc → GOK rK [] (some [⟨n - nc, ((m * vl : ℕ) : ℤ), ((vl : ℕ) : ℤ)⟩, ⟨m, ((vl : ℕ) : ℤ), ((n * vl : ℕ) : ℤ)⟩, ⟨vl, 1, 1⟩]) 0 0 false nd3 cld3.rdftApply)
    (O : Ptr) : Seg (n * m * vl) (trn n m vl) (fun I => applyCut n m nc mc vl cld1 cld2 cld3 I O) := by
  refine SegB.withBuf (f := fun buf I st => _) fun buf => ?_
  intro I st hI hB hIB
  beta_reduce
  have hBI : buf.blk ≠ I.blk := fun e => hIB e.symm
  -- bounds
  have rowLt : ∀ {x y v : ℕ}, x < n → y < m → v < vl → (x * m + y) * vl + v < n * m * vl := fun hx hy hv => tr_lt hx hy hv
  have colLt : ∀ {x y v : ℕ}, x < n → y < m → v < vl → (y * n + x) * vl + v < n * m * vl := fun hx hy hv => by
    rw [Nat.mul_comm n m]; exact tr_lt hy hx hv
  have hL1 : nc * m * vl ≤ n * m * vl := Nat.mul_le_mul_right _ (Nat.mul_le_mul_right _ hnc)
  have hL2 : nc * mc * vl ≤ nc * m * vl := Nat.mul_le_mul_right _ (Nat.mul_le_mul_left _ hmc)
  -- step 1: the last columns are saved, the first ones moved together
  obtain ⟨s1, hs1⟩ : ∃ s1, s1 = (if m > mc then
        forN nc (fun i => memcpy (mc * vl) (I + ((m * vl * i : ℕ) : ℤ)) (I + ((mc * vl * i : ℕ) : ℤ))) (cld1.rdftApply (I + ((mc * vl : ℕ) : ℤ)) buf st)
      else st) := ⟨_, rfl⟩
  have A1 : st.next ≤ s1.next ∧ (∀ x < nc, ∀ y < mc, ∀ v < vl, s1.mem (I + (((x * mc + y) * vl + v : ℕ) : ℤ)) = st.mem (I + (((x * m + y) * vl + v : ℕ) : ℤ))) ∧
      (∀ w, nc * m * vl ≤ w → s1.mem (I + (w : ℤ)) = st.mem (I + (w : ℤ))) ∧
      (∀ x < nc, ∀ y, mc ≤ y → y < m → ∀ v < vl, s1.mem (buf + ((((y - mc) * nc + x) * vl + v : ℕ) : ℤ)) = st.mem (I + (((x * m + y) * vl + v : ℕ) : ℤ))) ∧
      ∀ q : Ptr, q.blk < st.next → q.blk ≠ buf.blk → (∀ w < n * m * vl, q ≠ I + (w : ℤ)) → s1.mem q = st.mem q := by
    by_cases hm : m > mc
    · rw [if_pos hm] at hs1
      obtain ⟨a1, a2, a3⟩ := child3 (h1 hm) (G3.of_le (le_refl _) (Nat.mul_le_mul_right _ (by omega))) (G3_out nc (m - mc) vl) (by simp)
        (I := I + ((mc * vl : ℕ) : ℤ)) (O := buf) (st := st) hI hB (by simp) (fun _ => hIB)
      obtain ⟨b1, b2, b3⟩ := rowsUp (r := nc) (c := mc * vl) (S := m * vl) (Nat.mul_le_mul_right _ hmc) I (cld1.rdftApply (I + ((mc * vl : ℕ) : ℤ)) buf st)
        (fun i => memcpy (mc * vl) (I + ((m * vl * i : ℕ) : ℤ)) (I + ((mc * vl * i : ℕ) : ℤ))) (fun _ _ => rfl)
      rw [← hs1] at b1 b2 b3
      refine ⟨by rw [b1]; exact a1, ?_, ?_, ?_, ?_⟩
      · intro x hx y hy v hv
        have := b2 x hx (y * vl + v) (lt_radix hy hv)
        rw [show mc * vl * x + (y * vl + v) = (x * mc + y) * vl + v by ring, show m * vl * x + (y * vl + v) = (x * m + y) * vl + v by ring] at this
        rw [this]
        refine a3 _ hI (fun _ _ _ _ _ _ => ptr_ne_blk hIB) ?_
        intro x' hx' y' hy' v' hv' e
        rw [ptr_nat, ptr_nat_inj, show mc * vl + (x' * (m * vl) + y' * vl + v') = (x' * m + (mc + y')) * vl + v' by ring] at e
        have := (radix (show y < m by omega) (show mc + y' < m by omega) (radix hv hv' e).1).2
        omega
      · intro w hw
        rw [b3 _ (fun w' hw' e => by
          rw [ptr_nat_inj] at e
          have : mc * vl * nc = nc * mc * vl := by ring
          omega)]
        refine a3 _ hI (fun _ _ _ _ _ _ => ptr_ne_blk hIB) ?_
        intro x' hx' y' hy' v' hv' e
        rw [ptr_nat, ptr_nat_inj, show mc * vl + (x' * (m * vl) + y' * vl + v') = (x' * m + (mc + y')) * vl + v' by ring] at e
        have := tr_lt hx' (show mc + y' < m by omega) hv'
        omega
      · intro x hx y hy1 hy2 v hv
        rw [b3 _ (fun w' hw' e => ptr_ne_blk hBI e)]
        have := a2 x hx (y - mc) (by omega) v hv
        rw [tr_out (m := 0), ptr_nat, show mc * vl + (x * (m * vl) + (y - mc) * vl + v) = (x * m + (mc + (y - mc))) * vl + v by ring, show mc + (y - mc) = y by omega] at this
        exact this
      · intro q hq hqB hn
        rw [b3 q (fun w hw => hn w (by have : mc * vl * nc = nc * mc * vl := by ring
                                       omega))]
        refine a3 q hq (fun _ _ _ _ _ _ e => hqB (by rw [e]; rfl)) ?_
        intro x' hx' y' hy' v' hv'
        rw [ptr_nat, show mc * vl + (x' * (m * vl) + y' * vl + v') = (x' * m + (mc + y')) * vl + v' by ring]
        exact hn _ (rowLt (by omega) (by omega) hv')
    · rw [if_neg hm] at hs1
      obtain rfl : m = mc := by omega
      subst hs1
      exact ⟨le_refl _, fun _ _ _ _ _ _ => rfl, fun _ _ => rfl, fun x hx y hy1 hy2 => absurd hy2 (by omega), fun _ _ _ _ => rfl⟩
  obtain ⟨A11, A12, A13, A14, A15⟩ := A1
  -- step 2: the sub-matrix is transposed
  obtain ⟨s2, hs2⟩ : ∃ s2, s2 = cld2.rdftApply I I s1 := ⟨_, rfl⟩
  obtain ⟨B1, B2, B3⟩ := inplace_seg h2 h2e I s1 (by omega)
  beta_reduce at B1 B2 B3
  rw [← hs2] at B1 B2 B3
  have B2' : ∀ x < nc, ∀ y < mc, ∀ v < vl, s2.mem (I + (((y * nc + x) * vl + v : ℕ) : ℤ)) = st.mem (I + (((x * m + y) * vl + v : ℕ) : ℤ)) := by
    intro x hx y hy v hv
    rw [B2 _ (by rw [Nat.mul_comm nc mc]; exact tr_lt hy hx hv), trn_mk hx hv, A12 x hx y hy v hv]
  have B3' : ∀ w, nc * m * vl ≤ w → s2.mem (I + (w : ℤ)) = st.mem (I + (w : ℤ)) := by
    intro w hw
    rw [B3 (I + (w : ℤ)) (lt_of_lt_of_le hI A11) (fun w' hw' e => by rw [ptr_nat_inj] at e; omega), A13 w hw]
  have B4 : ∀ q : Ptr, q.blk = buf.blk → s2.mem q = s1.mem q := fun q hq =>
    B3 q (by rw [hq]; omega) fun w hw e => hBI (by rw [← hq, e]; rfl)
  have B5 : ∀ q : Ptr, q.blk < st.next → q.blk ≠ buf.blk → (∀ w < n * m * vl, q ≠ I + (w : ℤ)) → s2.mem q = st.mem q := by
    intro q hq hqB hn
    rw [B3 q (by omega) fun w hw => hn w (by omega), A15 q hq hqB hn]
  have hN2 : st.next ≤ s2.next := le_trans A11 B1
  -- step 3: the last rows
  obtain ⟨s3, hs3⟩ : ∃ s3, s3 = (if n > nc then
        cld3.rdftApply (buf + (((m - mc) * (nc * vl) : ℕ) : ℤ)) (I + ((nc * vl : ℕ) : ℤ))
          (forN mc (fun i0 => memcpy (n * vl) (I + ((nc * vl * (mc - 1 - i0) : ℕ) : ℤ)) (I + ((n * vl * (mc - 1 - i0) : ℕ) : ℤ)))
            (memcpy ((n - nc) * (m * vl)) (I + ((nc * (m * vl) : ℕ) : ℤ)) (buf + (((m - mc) * (nc * vl) : ℕ) : ℤ)) s2))
      else s2) := ⟨_, rfl⟩
  have C1 : st.next ≤ s3.next ∧ (∀ x < nc, ∀ y < mc, ∀ v < vl, s3.mem (I + (((y * n + x) * vl + v : ℕ) : ℤ)) = st.mem (I + (((x * m + y) * vl + v : ℕ) : ℤ))) ∧
      (∀ x, nc ≤ x → x < n → ∀ y < m, ∀ v < vl, s3.mem (I + (((y * n + x) * vl + v : ℕ) : ℤ)) = st.mem (I + (((x * m + y) * vl + v : ℕ) : ℤ))) ∧
      (∀ w < (m - mc) * (nc * vl), s3.mem (buf + (w : ℤ)) = s1.mem (buf + (w : ℤ))) ∧
      ∀ q : Ptr, q.blk < st.next → q.blk ≠ buf.blk → (∀ w < n * m * vl, q ≠ I + (w : ℤ)) → s3.mem q = st.mem q := by
    by_cases hn : n > nc
    · rw [if_pos hn] at hs3
      obtain ⟨ta, hta⟩ : ∃ ta, ta = memcpy ((n - nc) * (m * vl)) (I + ((nc * (m * vl) : ℕ) : ℤ)) (buf + (((m - mc) * (nc * vl) : ℕ) : ℤ)) s2 := ⟨_, rfl⟩
      obtain ⟨tb, htb⟩ : ∃ tb, tb = forN mc (fun i0 => memcpy (n * vl) (I + ((nc * vl * (mc - 1 - i0) : ℕ) : ℤ)) (I + ((n * vl * (mc - 1 - i0) : ℕ) : ℤ))) ta := ⟨_, rfl⟩
      rw [← hta, ← htb] at hs3
      have a0 : ta.next = s2.next := by rw [hta, memcpy_next]
      have a1 : ∀ w < (n - nc) * (m * vl), ta.mem (buf + (((m - mc) * (nc * vl) + w : ℕ) : ℤ)) = st.mem (I + ((nc * m * vl + w : ℕ) : ℤ)) := by
        intro w hw
        rw [hta, ← ptr_nat, memcpy_in hw, ptr_nat, show nc * (m * vl) + w = nc * m * vl + w by ring]
        exact B3' _ (by omega)
      have a2 : ∀ q : Ptr, (∀ w, (m - mc) * (nc * vl) ≤ w → q ≠ buf + (w : ℤ)) → ta.mem q = s2.mem q := by
        intro q hq
        rw [hta, memcpy_out]
        intro w hw
        rw [ptr_nat]
        exact hq _ (by omega)
      obtain ⟨b1, b2, b3⟩ := rowsDown (r := mc) (s := nc * vl) (C := n * vl) (Nat.mul_le_mul_right _ hnc) I ta
        (fun i0 => memcpy (n * vl) (I + ((nc * vl * (mc - 1 - i0) : ℕ) : ℤ)) (I + ((n * vl * (mc - 1 - i0) : ℕ) : ℤ))) (fun _ _ => rfl)
      rw [← htb] at b1 b2 b3
      obtain ⟨c1, c2, c3⟩ := child3 (h3 hn) (G3_in (n - nc) m vl) (G3.of_ge (le_refl _) (Nat.mul_le_mul_right _ (by omega))) (by simp)
        (I := buf + (((m - mc) * (nc * vl) : ℕ) : ℤ)) (O := I + ((nc * vl : ℕ) : ℤ)) (st := tb) (by rw [b1, a0]; show buf.blk < _; omega)
        (by rw [b1, a0]; show I.blk < _; omega) (by simp) (fun _ => hBI)
      rw [← hs3] at c1 c2 c3
      have hL3 : n * vl * mc ≤ n * m * vl := by
        calc n * vl * mc ≤ n * vl * m := Nat.mul_le_mul_left _ hmc
          _ = n * m * vl := by ring
      refine ⟨by omega, ?_, ?_, ?_, ?_⟩
      · intro x hx y hy v hv
        rw [c3 _ (by rw [b1, a0]; show I.blk < _; omega)]
        · have := b2 y hy (x * vl + v) (lt_radix hx hv)
          rw [show n * vl * y + (x * vl + v) = (y * n + x) * vl + v by ring, show nc * vl * y + (x * vl + v) = (y * nc + x) * vl + v by ring] at this
          rw [this, a2 _ (fun w hw => ptr_ne_blk hIB)]
          exact B2' x hx y hy v hv
        · intro x' hx' y' hy' v' hv' e
          rw [ptr_nat, ptr_nat_inj, show nc * vl + (x' * vl + y' * (n * vl) + v') = (y' * n + (nc + x')) * vl + v' by ring] at e
          have := (radix (show x < n by omega) (show nc + x' < n by omega) (radix hv hv' e).1).2
          omega
        · intro x' hx' y' hy' v' hv'
          rw [ptr_nat]
          exact ptr_ne_blk hIB
      · intro x hx1 hx2 y hy v hv
        have := c2 (x - nc) (by omega) y hy v hv
        rw [ptr_nat, ptr_nat, show nc * vl + ((x - nc) * vl + y * (n * vl) + v) = (y * n + (nc + (x - nc))) * vl + v by ring, show nc + (x - nc) = x by omega] at this
        rw [this, b3 _ (fun w hw => ptr_ne_blk hBI)]
        have hlt : (x - nc) * (m * vl) + y * vl + v < (n - nc) * (m * vl) := by
          have := lt_radix (show x - nc < n - nc by omega) (lt_radix hy hv)
          omega
        rw [a1 _ hlt]
        congr 2
        have e2 : nc * m * vl + ((x - nc) * (m * vl) + y * vl + v) = ((nc + (x - nc)) * m + y) * vl + v := by ring
        rw [e2, show nc + (x - nc) = x by omega]
      · intro w hw
        rw [c3 _ (by rw [b1, a0]; show buf.blk < _; omega), b3 _ (fun w hw => ptr_ne_blk hBI), a2 (buf + (w : ℤ)), B4 (buf + (w : ℤ)) rfl]
        · intro w' hw' e
          rw [ptr_nat_inj] at e; omega
        · intro x' hx' y' hy' v' hv'
          rw [ptr_nat]
          exact ptr_ne_blk hBI
        · intro x' hx' y' hy' v' hv' e
          rw [ptr_nat, ptr_nat_inj] at e; omega
      · intro q hq hqB hn'
        rw [c3 q (by omega), b3 q (fun w hw => hn' w (by omega)), a2 q (fun w hw e => hqB (by rw [e]; rfl)), B5 q hq hqB hn']
        · intro x' hx' y' hy' v' hv'
          rw [ptr_nat, show nc * vl + (x' * vl + y' * (n * vl) + v') = (y' * n + (nc + x')) * vl + v' by ring]
          exact hn' _ (colLt (by omega) hy' hv')
        · intro x' hx' y' hy' v' hv' e
          exact hqB (by rw [e]; rfl)
    · rw [if_neg hn] at hs3
      obtain rfl : n = nc := by omega
      subst hs3
      exact ⟨hN2, B2', fun x hx1 hx2 => absurd hx2 (by omega), fun w hw => B4 _ rfl, B5⟩
  obtain ⟨C11, C12, C13, C14, C15⟩ := C1
  -- step 4: the saved columns
  obtain ⟨s4, hs4⟩ : ∃ s4, s4 = (if m > mc then
      if n > nc then
        forN (m - mc) (fun i0 => memcpy (nc * vl) (buf + ((i0 * (nc * vl) : ℕ) : ℤ)) (I + (((mc + i0) * (n * vl) : ℕ) : ℤ))) s3
      else memcpy ((m - mc) * (n * vl)) buf (I + ((mc * (n * vl) : ℕ) : ℤ)) s3
    else s3) := ⟨_, rfl⟩
  have D1 : s4.next = s3.next ∧ (∀ x < nc, ∀ y, mc ≤ y → y < m → ∀ v < vl, s4.mem (I + (((y * n + x) * vl + v : ℕ) : ℤ)) = st.mem (I + (((x * m + y) * vl + v : ℕ) : ℤ))) ∧
      ∀ q : Ptr, (∀ x < nc, ∀ y, mc ≤ y → y < m → ∀ v < vl, q ≠ I + (((y * n + x) * vl + v : ℕ) : ℤ)) → s4.mem q = s3.mem q := by
    have saved : ∀ x < nc, ∀ y, mc ≤ y → y < m → ∀ v < vl, s3.mem (buf + (((y - mc) * (nc * vl) + (x * vl + v) : ℕ) : ℤ)) = st.mem (I + (((x * m + y) * vl + v : ℕ) : ℤ)) := by
      intro x hx y hy1 hy2 v hv
      rw [C14 _ (lt_radix (show y - mc < m - mc by omega) (lt_radix hx hv)), ← A14 x hx y hy1 hy2 v hv]
      congr 3; ring
    by_cases hm : m > mc
    · rw [if_pos hm] at hs4
      by_cases hn : n > nc
      · rw [if_pos hn] at hs4
        obtain ⟨b1, b2, b3⟩ := rowsPut (r := m - mc) (c := nc * vl) (C := n * vl) (r0 := mc) (Nat.mul_le_mul_right _ hnc) I buf hBI s3
          (fun i0 => memcpy (nc * vl) (buf + ((i0 * (nc * vl) : ℕ) : ℤ)) (I + (((mc + i0) * (n * vl) : ℕ) : ℤ))) (fun _ _ => rfl)
        rw [← hs4] at b1 b2 b3
        refine ⟨b1, ?_, ?_⟩
        · intro x hx y hy1 hy2 v hv
          have := b2 (y - mc) (by omega) (x * vl + v) (lt_radix hx hv)
          rw [show mc + (y - mc) = y by omega, show y * (n * vl) + (x * vl + v) = (y * n + x) * vl + v by ring] at this
          rw [this]; exact saved x hx y hy1 hy2 v hv
        · intro q hq
          refine b3 q ?_
          intro i hi w hw
          obtain ⟨x, v, hx, hv, rfl⟩ := radix_split hw
          rw [show (mc + i) * (n * vl) + (x * vl + v) = ((mc + i) * n + x) * vl + v by ring]
          exact hq x hx (mc + i) (by omega) (by omega) v hv
      · rw [if_neg hn] at hs4
        obtain rfl : n = nc := by omega
        refine ⟨by rw [hs4, memcpy_next], ?_, ?_⟩
        · intro x hx y hy1 hy2 v hv
          have := memcpy_in (I := buf) (O := I + ((mc * (n * vl) : ℕ) : ℤ)) (st := s3) (lt_radix (show y - mc < m - mc by omega) (lt_radix hx hv))
          rw [← hs4, ptr_nat, show mc * (n * vl) + ((y - mc) * (n * vl) + (x * vl + v)) = ((mc + (y - mc)) * n + x) * vl + v by ring, show mc + (y - mc) = y by omega] at this
          rw [this]; exact saved x hx y hy1 hy2 v hv
        · intro q hq
          rw [hs4, memcpy_out]
          intro w hw
          obtain ⟨i, w1, hi, hw1, rfl⟩ := radix_split hw
          obtain ⟨x, v, hx, hv, rfl⟩ := radix_split hw1
          rw [ptr_nat, show mc * (n * vl) + (i * (n * vl) + (x * vl + v)) = ((mc + i) * n + x) * vl + v by ring]
          exact hq x hx (mc + i) (by omega) (by omega) v hv
    · rw [if_neg hm] at hs4
      subst hs4
      exact ⟨rfl, fun x hx y hy1 hy2 => absurd hy2 (by omega), fun _ _ => rfl⟩
  obtain ⟨D11, D12, D13⟩ := D1
  have hfin : st.next ≤ s4.next ∧ (∀ w < n * m * vl, s4.mem (I + (w : ℤ)) = st.mem (I + ((trn n m vl w : ℕ) : ℤ))) ∧
      ∀ q : Ptr, q.blk < st.next → q.blk ≠ buf.blk → (∀ w < n * m * vl, q ≠ I + (w : ℤ)) → s4.mem q = st.mem q := by
    refine ⟨by omega, ?_, ?_⟩
    · intro w hw
      rw [Nat.mul_comm n m] at hw
      obtain ⟨x, y, v, hx, hy, hv, rfl⟩ := tr_ind hw
      rw [trn_mk hx hv]
      by_cases h : mc ≤ y ∧ x < nc
      · exact D12 x h.2 y h.1 hy v hv
      · rw [D13]
        · by_cases hx' : x < nc
          · exact C12 x hx' y (by omega) v hv
          · exact C13 x (by omega) hx y hy v hv
        · intro x' hx' y' hy1 hy2 v' hv' e
          rw [ptr_nat_inj] at e
          obtain ⟨r1, -⟩ := radix hv hv' e
          obtain ⟨r2, r3⟩ := radix hx (show x' < n by omega) r1
          omega
    · intro q hq hqB hn
      rw [D13 q fun x hx y _ hy v hv => hn _ (colLt (by omega) hy hv), C15 q hq hqB hn]
  have heq : s4 = _ := hs4
  rw [hs3, hs2, hs1] at heq
  rw [heq] at hfin
  exact hfin

end FFTW.RdftS
