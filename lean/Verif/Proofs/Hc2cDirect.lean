import Verif.Proofs.Hc2cBuf
import Verif.Proofs.LocD

/-! # rdft/ct-hc2c-direct.c -/

namespace FFTW.Rdft2S
open Tensor Spec DftS RdftS

/-- the elements of a twiddle step -/
def ESet (t : Hc2cP) (i mb me : ℕ) (x : ℕ × ℕ × ℕ) : Prop :=
  x.1 = i ∧ x.2.1 < 2 ∧ 2 * x.2.2 ≤ t.r * t.m ∧ mb ≤ hcCol t.m x.2.2 ∧ hcCol t.m x.2.2 < me
/-- those with a specified result -/
def ASet (fwd : Bool) (t : Hc2cP) (i mb me : ℕ) (x : ℕ × ℕ × ℕ) : Prop := ESet t i mb me x ∧ (fwd = false → 2 * x.2.2 < t.r * t.m)

/-- their transformation -/
noncomputable def CFun (via : Hc2cKind) (fwd : Bool) (t : Hc2cP) (u : ℕ × ℕ × ℕ → ℝ) (x : ℕ × ℕ × ℕ) : ℝ :=
  hc2cStep via fwd t.r t.m (fun e f => u (x.1, e, f)) x.2.1 x.2.2

/-- no two numbers at the same place -/
def Hc2cInj (t : Hc2cP) : Prop := ∀ P : Ptr, ∀ i < t.v, ∀ e < 2, ∀ x, 2 * x ≤ t.r * t.m → ∀ i' < t.v, ∀ e' < 2, ∀ x', 2 * x' ≤ t.r * t.m →
    t.at P i e x = t.at P i' e' x' → i = i' ∧ e = e' ∧ x = x'

abbrev adC (t : Hc2cP) (P : Ptr) (x : ℕ × ℕ × ℕ) : Ptr := t.at P x.1 x.2.1 x.2.2

theorem CFun_dep {via : Hc2cKind} {fwd : Bool} {t : Hc2cP} (hr : t.r % 2 = 0) (hm : t.m ≠ 0) {i mb me : ℕ} (u w : ℕ × ℕ × ℕ → ℝ)
    (h : ∀ y, ESet t i mb me y → u y = w y) (x : ℕ × ℕ × ℕ) (hx : ASet fwd t i mb me x) : CFun via fwd t u x = CFun via fwd t w x := by
  obtain ⟨⟨rfl, h1, h2, h3, h4⟩, _⟩ := hx
  refine hc2cStep_congr via fwd hr hm fun e' he' f' hf' hc => h _ ⟨rfl, he', hf', ?_, ?_⟩
  · simp only; rw [hc]; exact h3
  · simp only; rw [hc]; exact h4

theorem Hc2cOK_of_LocD {via : Hc2cKind} {fwd : Bool} {t : Hc2cP} {f : Ptr → Ptr → State → State}
    (h : Hc2cInj t → ∀ P : Ptr, LocD (P.blk + 1) (adC t P) (fun x => ∃ i < t.v, ESet t i 0 (t.m / 2 + 1) x)
      (fun x => ∃ i < t.v, ASet fwd t i 0 (t.m / 2 + 1) x) (CFun via fwd t) (f P (P + t.δ))) : Hc2cOK via fwd t f := by
  intro hn P st hP
  have hcol : ∀ x, hcCol t.m x < t.m / 2 + 1 := by
    intro x
    rcases Nat.eq_zero_or_pos t.m with h0 | h0
    · simp [hcCol, h0]
    · have := Nat.mod_lt x h0; unfold hcCol; omega
  obtain ⟨h1, h2⟩ := (h hn P).run st hP
  refine ⟨h1.mono ?_, ?_⟩
  · rintro q _ ⟨⟨i, e, x⟩, ⟨_, hi, rfl, a, b, _, _⟩, rfl⟩
    exact ⟨_, hi, e, a, x, b, rfl⟩
  · intro i hi e he x hx hlt
    exact h2 (i, e, x) ⟨i, hi, ⟨rfl, he, hx, Nat.zero_le _, hcol _⟩, hlt⟩

/-- numbers `q m + l` of the arrays -/
theorem half_row {r m q l : ℕ} (hr : r % 2 = 0) (hq : q < r / 2) (hl : l < m) : 2 * (q * m + l) < r * m := by
  have h1 : (q + 1) * m ≤ r / 2 * m := Nat.mul_le_mul_right _ hq
  rw [Nat.add_mul] at h1
  have h2 : 2 * (r / 2 * m) = r * m := by rw [← mul_assoc]; congr 1; omega
  omega

theorem row_half {r m x : ℕ} (hr : r % 2 = 0) (hm : m ≠ 0) (h : 2 * x < r * m) : x / m < r / 2 := by
  apply Nat.div_lt_of_lt_mul
  have h2 : 2 * (r / 2 * m) = r * m := by rw [← mul_assoc]; congr 1; omega
  rw [mul_comm]; omega

/-- the columns that a codelet transforms -/
theorem LocD_of_cols {via : Hc2cKind} {fwd : Bool} {t : Hc2cP} (hn : Hc2cInj t) {P : Ptr} {i mb me : ℕ} (hi : i < t.v)
    (h0 : 0 < mb) (h2 : 2 * me ≤ t.m + 1) (hr : t.r % 2 = 0) (hm : t.m ≠ 0) {f : State → State} {Rp Ip Rm Im : Ptr}
    (e0 : Rp = P + (i : ℤ) * t.vs + (mb : ℤ) * t.ms) (e1 : Ip = Rp + t.δ)
    (e2 : Rm = P + (i : ℤ) * t.vs + ((t.m : ℤ) - (mb : ℤ)) * t.ms) (e3 : Im = Rm + t.δ)
    (h : H2Cols via fwd t.r t.m ((t.m : ℤ) * t.ms) t.ms mb me Rp Ip Rm Im f) :
    LocD (P.blk + 1) (adC t P) (ESet t i mb me) (ASet fwd t i mb me) (CFun via fwd t) f := by
  have hat : ∀ s e j q : ℕ, e < 2 → mb ≤ j → j < me → h2At Rp Ip Rm Im ((t.m : ℤ) * t.ms) t.ms mb j s e q = t.at P i e (hcIx t.m s j q) := by
    intro s e j q he hj hj2
    subst e1 e3
    subst e0 e2
    simp only [h2At, Hc2cP.at, hcIx]
    rcases (by omega : e = 0 ∨ e = 1) with rfl | rfl
    · split
      · simp only [if_true, Ptr.add_add]; congr 1; push_cast; ring
      · simp only [if_true, Ptr.add_add]; congr 1
        rw [Nat.cast_add, Nat.cast_sub (by omega)]; push_cast; ring
    · split
      · simp only [if_neg (show ¬ (1 : ℕ) = 0 by omega), Ptr.add_add]; congr 1; push_cast; ring
      · simp only [if_neg (show ¬ (1 : ℕ) = 0 by omega), Ptr.add_add]; congr 1
        rw [Nat.cast_add, Nat.cast_sub (by omega)]; push_cast; ring
  have hlt : ∀ s j q : ℕ, mb ≤ j → j < me → q < t.r / 2 → 2 * hcIx t.m s j q < t.r * t.m := by
    intro s j q hj hj2 hq
    exact half_row hr hq (by split <;> omega)
  have inj : ∀ j s e q j' s' e' q' : ℕ, mb ≤ j → j < me → s < 2 → e < 2 → q < t.r / 2 → mb ≤ j' → j' < me → s' < 2 → e' < 2 → q' < t.r / 2 →
      h2At Rp Ip Rm Im ((t.m : ℤ) * t.ms) t.ms mb j s e q = h2At Rp Ip Rm Im ((t.m : ℤ) * t.ms) t.ms mb j' s' e' q' → j = j' ∧ s = s' ∧ e = e' ∧ q = q' := by
    intro j s e q j' s' e' q' a1 a2 a3 a4 a5 a6 a7 a8 a9 a10 h
    rw [hat s e j q a4 a1 a2, hat s' e' j' q' a9 a6 a7] at h
    obtain ⟨_, h3, h4⟩ := hn P i hi e a4 _ (hlt s j q a1 a2 a5).le i hi e' a9 _ (hlt s' j' q' a6 a7 a10).le h
    obtain ⟨h5, h6, h7⟩ := hcIx_inj a3 (by omega) (by omega) a8 (by omega) (by omega) h4
    exact ⟨h6, h5, h3, h7⟩
  refine ⟨fun x hx => hx.1, ?_, fun u w e x hx => CFun_dep hr hm u w e x hx, ?_⟩
  · rintro ⟨i', e, x⟩ -
    simp [adC, Hc2cP.at]
  · intro st hst
    obtain ⟨h3, h4⟩ := h inj st (by subst e0; simp; omega) (by subst e1 e0; simp; omega) (by subst e2; simp; omega) (by subst e3 e2; simp; omega)
    refine ⟨h3.mono ?_, ?_⟩
    · rintro q _ ⟨j, s, e, k, b1, b2, b3, b4, b5, rfl⟩
      refine ⟨(i, e, hcIx t.m s j k), ⟨rfl, b4, (hlt s j k b1 b2 b5).le, ?_, ?_⟩, hat s e j k b4 b1 b2⟩
      · simp only; rw [hcIx_col k (by omega) (by omega)]; exact b1
      · simp only; rw [hcIx_col k (by omega) (by omega)]; exact b2
    · rintro ⟨i', e, x⟩ ⟨⟨rfl, he, hx, ha, hb⟩, -⟩
      simp only at he hx ha hb ⊢
      have hxn : x < t.r * t.m := by
        rcases Nat.eq_zero_or_pos x with h5 | h5
        · subst h5
          have : hcCol t.m 0 = 0 := by simp [hcCol]
          omega
        · omega
      obtain ⟨s, hs, q, hq, ex⟩ := hcIx_exists hm hxn (by omega) (by omega)
      generalize hcCol t.m x = j at *
      subst ex
      have hq' : q < t.r / 2 := by
        have h6 : 2 * (q * t.m) < t.r * t.m := by unfold hcIx at hx; split at hx <;> omega
        rw [← mul_assoc] at h6
        have := Nat.lt_of_mul_lt_mul_right h6
        omega
      have h5 := h4 j ha hb
      simp only [adC, CFun]
      rw [← hat s e j q he ha hb]
      have hw : ∀ s' < 2, ∀ e' < 2, ∀ q' < t.r / 2, st.mem (h2At Rp Ip Rm Im ((t.m : ℤ) * t.ms) t.ms mb j s' e' q') = colOf t.m j (fun e x => st.mem (t.at P i' e x)) s' e' q' := by
        intro s' _ e' he' q' _
        rw [hat s' e' j q' he' ha hb]; rfl
      cases fwd
      · simp only [Bool.false_eq_true, if_false] at h5
        refine hc2cStep_col_bwd via (fun e x => st.mem (t.at P i' e x)) (fun s e q => (f st).mem (h2At Rp Ip Rm Im ((t.m : ℤ) * t.ms) t.ms mb j s e q)) hr (by omega) (by omega) ?_ hs he hq'
        intro b hb'
        rw [h5 b hb']
        exact Finset.sum_congr rfl fun k hk => by rw [colSpec_congr hr (Finset.mem_range.1 hk) hw]
      · simp only [if_true] at h5
        refine hc2cStep_col_fwd via (fun e x => st.mem (t.at P i' e x)) (fun s e q => (f st).mem (h2At Rp Ip Rm Im ((t.m : ℤ) * t.ms) t.ms mb j s e q)) hr (by omega) (by omega) ?_ hs he hq'
        intro b hb'
        rw [h5 b hb']
        exact Finset.sum_congr rfl fun k hk => by rw [colRow_congr hr (Finset.mem_range.1 hk) hw]

/-- the places of the column `l` -/
theorem zig_at {t : Hc2cP} {P : Ptr} {i l : ℕ} (k : ℕ) :
    P + (i : ℤ) * t.vs + (l : ℤ) * t.ms + zig t.δ ((t.m : ℤ) * t.ms) k = t.at P i (k % 2) (k / 2 * t.m + l) := by
  simp only [Hc2cP.at, zig, Ptr.add_add]; congr 1; push_cast; ring

/-- the middle column -/
theorem LocD_mid {via : Hc2cKind} {fwd : Bool} {t : Hc2cP} (hn : Hc2cInj t) {P Q : Ptr} {i : ℕ} (hi : i < t.v) (hr : t.r % 2 = 0) {l : ℕ} (hl : 0 < l) (hm : 2 * l = t.m)
    (hQ : Q = P + (i : ℤ) * t.vs + (l : ℤ) * t.ms) {g : Ptr → State → State} (h : ShiftOK fwd t.r t.δ ((t.m : ℤ) * t.ms) g) :
    LocD (P.blk + 1) (adC t P) (ESet t i l (l + 1)) (ASet fwd t i l (l + 1)) (CFun via fwd t) (g Q) := by
  subst hQ
  have hlt : ∀ k < t.r, 2 * (k / 2 * t.m + l) < t.r * t.m := fun k hk => half_row hr (by omega) (by omega)
  refine ⟨fun x hx => hx.1, ?_, fun u w e x hx => CFun_dep hr (by omega) u w e x hx, ?_⟩
  · rintro ⟨i', e, x⟩ -
    simp [adC, Hc2cP.at]
  · intro st hst
    obtain ⟨h1, h2⟩ := h (by
      intro k hk k' hk' e
      have e' : P + (i : ℤ) * t.vs + (l : ℤ) * t.ms + zig t.δ ((t.m : ℤ) * t.ms) k = P + (i : ℤ) * t.vs + (l : ℤ) * t.ms + zig t.δ ((t.m : ℤ) * t.ms) k' := by rw [e]
      rw [zig_at, zig_at] at e'
      obtain ⟨_, a, b⟩ := hn P i hi _ (Nat.mod_lt k (by omega)) _ (hlt k hk).le i hi _ (Nat.mod_lt k' (by omega)) _ (hlt k' hk').le e'
      have := Nat.eq_of_mul_eq_mul_right (show 0 < t.m by omega) (show k / 2 * t.m = k' / 2 * t.m by omega)
      omega) (P + (i : ℤ) * t.vs + (l : ℤ) * t.ms) st (by simp only [Ptr.add_blk]; omega)
    refine ⟨h1.mono ?_, ?_⟩
    · rintro q _ ⟨k, hk, rfl⟩
      refine ⟨(i, k % 2, k / 2 * t.m + l), ⟨rfl, Nat.mod_lt _ (by omega), (hlt k hk).le, ?_, ?_⟩, zig_at k⟩ <;> simp only <;> rw [hcCol_at _ (by omega)] <;> omega
    · rintro ⟨i', e, x⟩ ⟨⟨rfl, he, hx, ha, hb⟩, -⟩
      simp only at he hx ha hb ⊢
      have hxm : x % t.m = l := by
        have := Nat.mod_lt x (show 0 < t.m by omega)
        unfold hcCol at ha hb; omega
      have hxe : x = x / t.m * t.m + l := by have := Nat.div_add_mod x t.m; rw [mul_comm] at this; omega
      have hx2 : 2 * x < t.r * t.m := by
        rcases Nat.lt_or_ge (2 * x) (t.r * t.m) with h5 | h5
        · exact h5
        · exfalso
          have h6 : x = t.r / 2 * t.m := by
            have h2 : 2 * (t.r / 2 * t.m) = t.r * t.m := by rw [← mul_assoc]; congr 1; omega
            omega
          rw [h6, Nat.mul_mod_left] at hxm
          omega
      have hq := row_half hr (by omega) hx2
      generalize x / t.m = q at *
      subst hxe
      have h3 := h2 (2 * q + e) (by omega)
      rw [zig_at, show (2 * q + e) % 2 = e by omega, show (2 * q + e) / 2 = q by omega] at h3
      simp only [adC, CFun]
      rw [h3]
      cases fwd
      · have := hc2cBwd_mid via (t := 2 * q + e) (fun e x => st.mem (t.at P i' e x)) hr hl hm (by omega)
        rw [show (2 * q + e) % 2 = e by omega, show (2 * q + e) / 2 = q by omega] at this
        rw [this]
        exact Finset.sum_congr rfl fun k _ => by rw [zig_at]
      · have := hc2cFwd_mid via (t := 2 * q + e) (fun e x => st.mem (t.at P i' e x)) hr hl hm (by omega)
        rw [show (2 * q + e) % 2 = e by omega, show (2 * q + e) / 2 = q by omega] at this
        simp only [hc2cStep, if_true]
        rw [this]
        exact Finset.sum_congr rfl fun k _ => by rw [zig_at]

/-- `spread` over the one empty row -/
theorem spread_one (F : Multiset ℤ) : spread F (ins (append (some (([] : List (Dim × Unit)).map Prod.fst)) (some []))) = F := by
  simp [spread, append, ins, offs]
theorem spread_one' (F : Multiset ℤ) : spread F (outs (append (some (([] : List (Dim × Unit)).map Prod.fst)) (some []))) = F := by
  simp [spread, append, outs, offs]

/-- one row in place -/
theorem hok_one {h : Half} {N : ℕ} {z : ℕ → ℤ} {nd : Bool} {f : Ptr → Ptr → State → State} (hA : h.A = z) (hB : h.B = z) (ha : h.na ≤ N) (hb : h.nb ≤ N)
    (hinj : ∀ k < N, ∀ k' < N, z k = z k' → k = k') (hf : HOK h [] (some []) true nd f) {Q : Ptr} {st : State} (hQ : Q.blk < st.next) :
    Frame st (f Q Q st) (fun q => ∃ k < N, q = Q + z k) ∧
    ∀ k < h.nb, (f Q Q st).mem (Q + z k) = h.P k (∑ i ∈ Finset.range h.na, h.c k i * ((st.mem (Q + z i) : ℝ) : ℂ)) := by
  have nd1 : ∀ n ≤ N, ((Multiset.range n).map z).Nodup := by
    intro n hn
    refine Multiset.Nodup.map_on ?_ (Multiset.nodup_range _)
    intro k hk k' hk' e
    exact hinj k (lt_of_lt_of_le (Multiset.mem_range.1 hk) hn) k' (lt_of_lt_of_le (Multiset.mem_range.1 hk') hn) e
  obtain ⟨h1, h2⟩ := hf ⟨by rw [hOuts, spread_one', hB]; exact nd1 _ hb, fun _ => by rw [hIns, spread_one, hA]; exact nd1 _ ha,
      fun _ ab hab => by obtain rfl : ab = 0 := by simpa [append, pairs, offs] using hab
                         rfl,
      fun _ => by rw [hAll, spread_one]; exact Multiset.nodup_dedup _⟩ Q Q st ⟨hQ, hQ, fun _ => rfl, by simp⟩
  refine ⟨h1.mono ?_, ?_⟩
  · rintro q _ (⟨b, hb', rfl⟩ | ⟨_, b, hb', rfl⟩)
    · rw [hOuts, spread_one', hB] at hb'
      obtain ⟨k, hk, rfl⟩ := Multiset.mem_map.1 hb'
      exact ⟨k, lt_of_lt_of_le (Multiset.mem_range.1 hk) hb, rfl⟩
    · rw [hIns, spread_one, hA] at hb'
      obtain ⟨k, hk, rfl⟩ := Multiset.mem_map.1 hb'
      exact ⟨k, lt_of_lt_of_le (Multiset.mem_range.1 hk) ha, rfl⟩
  · intro k hk
    have := h2 [] ⟨rfl, by simp⟩ 0 (by simp [pairs, offs]) k hk
    rw [hB, hA, gOut_nil] at this
    simp only [gSum, Prod.fst_zero, Prod.snd_zero, zero_add] at this
    exact this

/-- column 0 -/
theorem LocD_zero {via : Hc2cKind} {fwd : Bool} {t : Hc2cP} (hn : Hc2cInj t) {P Q : Ptr} {i : ℕ} (hi : i < t.v) (hr : t.r % 2 = 0) (hr0 : 0 < t.r) (hm : t.m ≠ 0)
    (hQ : Q = P + (i : ℤ) * t.vs) {nd : Bool} {g : Ptr → Ptr → Ptr → Ptr → State → State}
    (h : HOK (half2 (if fwd then .R2HC else .HC2R) ⟨t.r, (t.m : ℤ) * t.ms, (t.m : ℤ) * t.ms⟩ t.δ t.δ) [] (some []) true nd
      (run2 (if fwd then .R2HC else .HC2R) t.δ t.δ g)) :
    LocD (P.blk + 1) (adC t P) (ESet t i 0 1) (ASet fwd t i 0 1) (CFun via fwd t) (g Q (Q + t.δ) Q (Q + t.δ)) := by
  have hzig : ∀ k, Q + zig t.δ ((t.m : ℤ) * t.ms) k = t.at P i (k % 2) (k / 2 * t.m) := by
    intro k
    have := zig_at (t := t) (P := P) (i := i) (l := 0) k
    simp only [Nat.cast_zero, zero_mul, Ptr.add_zero, add_zero] at this
    rw [hQ, this]
  have hle : ∀ k < t.r + 2, 2 * (k / 2 * t.m) ≤ t.r * t.m := by
    intro k hk
    rw [← mul_assoc]
    exact Nat.mul_le_mul_right _ (by omega)
  have hinj : ∀ k < t.r + 2, ∀ k' < t.r + 2, zig t.δ ((t.m : ℤ) * t.ms) k = zig t.δ ((t.m : ℤ) * t.ms) k' → k = k' := by
    intro k hk k' hk' e
    have e' : Q + zig t.δ ((t.m : ℤ) * t.ms) k = Q + zig t.δ ((t.m : ℤ) * t.ms) k' := by rw [e]
    rw [hzig, hzig] at e'
    obtain ⟨_, a, b⟩ := hn P i hi _ (Nat.mod_lt k (by omega)) _ (hle k hk) i hi _ (Nat.mod_lt k' (by omega)) _ (hle k' hk') e'
    have := Nat.eq_of_mul_eq_mul_right (show 0 < t.m by omega) b
    omega
  refine ⟨fun x hx => hx.1, ?_, fun u w e x hx => CFun_dep hr hm u w e x hx, ?_⟩
  · rintro ⟨i', e, x⟩ -
    simp [adC, Hc2cP.at]
  · intro st hst
    have fin : ∀ st' : State, Frame st st' (fun q => ∃ k < t.r + 2, q = Q + zig t.δ ((t.m : ℤ) * t.ms) k) →
        (∀ k < t.r + 2, (fwd = false → k < t.r) → st'.mem (Q + zig t.δ ((t.m : ℤ) * t.ms) k) =
          hc2cStep via fwd t.r t.m (fun e x => st.mem (t.at P i e x)) (k % 2) (k / 2 * t.m)) →
        Frame st st' (fun q => ∃ x, ESet t i 0 1 x ∧ q = adC t P x) ∧ ∀ x, ASet fwd t i 0 1 x → st'.mem (adC t P x) = CFun via fwd t (fun y => st.mem (adC t P y)) x := by
      intro st' h1 h2
      refine ⟨h1.mono ?_, ?_⟩
      · rintro q _ ⟨k, hk, rfl⟩
        refine ⟨(i, k % 2, k / 2 * t.m), ⟨rfl, Nat.mod_lt _ (by omega), hle k hk, Nat.zero_le _, ?_⟩, hzig k⟩
        simp [hcCol]
      · rintro ⟨i', e, x⟩ ⟨⟨rfl, he, hx, -, hb⟩, hlt⟩
        simp only at he hx hb hlt ⊢
        have hxm : x % t.m = 0 := by
          have := Nat.mod_lt x (show 0 < t.m by omega)
          unfold hcCol at hb; omega
        have hxe : x = x / t.m * t.m := by have := Nat.div_add_mod x t.m; rw [mul_comm] at this; omega
        generalize x / t.m = q at *
        subst hxe
        rw [← mul_assoc] at hx hlt
        have hq := Nat.le_of_mul_le_mul_right hx (show 0 < t.m by omega)
        have h3 := h2 (2 * q + e) (by omega) (fun hf => by
          have := Nat.lt_of_mul_lt_mul_right (hlt hf)
          omega)
        rw [hzig, show (2 * q + e) % 2 = e by omega, show (2 * q + e) / 2 = q by omega] at h3
        exact h3
    cases fwd
    · simp only [Bool.false_eq_true, if_false, half2, run2] at h
      obtain ⟨h1, h2⟩ := hok_one (N := t.r + 2) rfl rfl (by simp only [c2rHalf]; omega) (by simp only [c2rHalf]; omega) hinj h (Q := Q) (st := st) (by subst hQ; simp only [Ptr.add_blk]; omega)
      refine fin _ h1 fun k hk hk2 => ?_
      refine (h2 k (hk2 rfl)).trans ?_
      rw [hc2cBwd_zero via _ hm (hk2 rfl), c2r_of_hc hr0 _ t.δ ((t.m : ℤ) * t.ms) t.δ ((t.m : ℤ) * t.ms)]
      simp only [← hzig]; rfl
    · simp only [if_true, half2, run2] at h
      obtain ⟨h1, h2⟩ := hok_one (N := t.r + 2) rfl rfl (by simp only [r2cHalf]; omega) (by simp only [r2cHalf]; omega) hinj h (Q := Q) (st := st) (by subst hQ; simp only [Ptr.add_blk]; omega)
      refine fin _ h1 fun k hk _ => ?_
      refine (h2 k (by simp only [r2cHalf]; omega)).trans ?_
      simp only [hc2cStep, if_true, hc2cFwd_zero via _ _ hm, ← hzig, r2cHalf, part]
      split <;> rfl

variable [CLib]

theorem compressContiguous_nil : compressContiguous (some []) = some [] := by
  simp [compressContiguous, tensorSz, reallyCompress]

/-- the shifted problems -/
theorem kosher_mkproblemRdft2s {sz : List Dim} {cr ci : Ptr} {k : R2Kind} (hl : sz.length ≤ 1) (hs : (lastDim sz).is = (lastDim sz).os) (hn : 0 < (lastDim sz).n) :
    Kosher (mkproblemRdft2s sz (some []) cr ci cr ci k) := by
  unfold mkproblemRdft2s
  split
  · trivial
  · refine ⟨rfl, rfl, compressContiguous_nil, ?_, ?_, ?_⟩
    · have h0 : sz.dropLast = [] := List.length_eq_zero_iff.1 (by rw [List.length_dropLast]; omega)
      have := congrArg List.length (rdft2Sz_dropLast sz)
      rw [h0, List.length_dropLast] at this
      simp [compress, reallyCompress, canonicalize] at this
      simp only
      omega
    · simp only
      rcases rdft2Sz_last sz with h | ⟨h, _⟩
      · rw [h]; exact hs
      · rw [h]
    · simp only
      rcases rdft2Sz_last sz with h | ⟨h, _⟩
      · rw [h]; exact hn
      · rw [h]; exact Nat.one_pos

omit [CLib] in
theorem ShiftOK_one {fwd : Bool} {δ s s' : ℤ} {f : Ptr → State → State} (h : ShiftOK fwd 1 δ s f) : ShiftOK fwd 1 δ s' f := by
  have z : ∀ k < 1, zig δ s k = zig δ s' k := by
    intro k hk
    obtain rfl : k = 0 := by omega
    simp [zig]
  intro _ P st hP
  obtain ⟨h1, h2⟩ := h (by intros; omega) P st hP
  refine ⟨h1.mono ?_, ?_⟩
  · rintro q _ ⟨k, hk, rfl⟩
    exact ⟨k, hk, by rw [z k hk]⟩
  · intro k hk
    rw [← z k hk, h2 k hk]
    exact Finset.sum_congr rfl fun i hi => by rw [z i (Finset.mem_range.1 hi)]

theorem sound_mkproblemRdft2s {nd : Bool} {sz : List Dim} {cr ci : Ptr} {k : R2Kind} {c : Plan} (h : Sound nd (mkproblemRdft2s sz (some []) cr ci cr ci k) c) :
    ShiftOK (decide (k = .R2HC)) (lastDim sz).n (ci - cr) (lastDim sz).is fun P => c.rdft2Apply P (P + (ci - cr)) P (P + (ci - cr)) := by
  unfold mkproblemRdft2s at h
  split at h
  · exact absurd h (by cases c <;> exact id)
  · cases c with
    | dft f => exact absurd h id
    | rdft f => exact absurd h id
    | rdft2 f =>
      simp only [Sound] at h
      rcases rdft2Sz_last sz with e | ⟨e, e1⟩
      · rw [e] at h; exact h
      · rw [e] at h
        rw [e1]
        exact ShiftOK_one h

omit [CLib] in
/-- one number: nothing changes -/
theorem ShiftOK_nop {fwd : Bool} {δ s : ℤ} {f : Ptr → State → State} (h : ShiftOK fwd 1 δ s f) {Q : Ptr} {st : State} (hQ : Q.blk < st.next) :
    Frame st (f Q st) (fun _ => False) := by
  obtain ⟨h1, h2⟩ := h (by intros; omega) Q st hQ
  refine ⟨h1.next, fun q hq _ => ?_⟩
  by_cases hx : q = Q + zig δ s 0
  · rw [hx, h2 0 (by omega)]
    simp [shiftK_one]
  · exact h1.mem q hq fun ⟨k, hk, e⟩ => hx (by rw [e, show k = 0 by omega])

/-- contract of a maker of twiddle steps between real and complex arrays -/
def CInferior.Sound (via : Hc2cKind) (mk : CInferior) : Prop :=
  ∀ (fwd : Bool) (t : Hc2cP) (cr ci : Ptr) (fl : Flags), 0 < t.r → 0 < t.m → 0 ≤ t.ms → t.δ = ci - cr → ci.blk = cr.blk →
    (mk fwd t cr ci fl).Good fl fun r => ∀ f, r = some f → t.r % 2 = 0 ∧ Hc2cOK via fwd t f

/-- rdft/ct-hc2c-direct.c -/
theorem hc2cDirect_sound {via : Hc2cKind} {cexp : ℕ → ℤ → ℝ × ℝ} {c : KHc2c} (hc : c.Sound via cexp) (bufferedp : Bool) (taste : Hc2cP → Flags → Bool) :
    CInferior.Sound via (hc2cDirect cexp c bufferedp taste) := by
  intro fwd t cr ci fl hr0 hm0 hms hδ hbk
  unfold hc2cDirect
  split
  rotate_left
  · intro f hf; simp at hf
  rename_i happ
  obtain ⟨hrc, hfwd, _⟩ := happ
  have hr : t.r % 2 = 0 := by rw [hrc]; exact hc.even
  dsimp only
  have hrs : 0 ≤ (t.m : ℤ) * t.ms := mul_nonneg (Int.natCast_nonneg _) hms
  apply Mk.Good.need
  · refine kosher_mkproblemRdft2 ⟨hbk, hbk⟩ ?_ ?_ ?_ ?_ (fun h => absurd rfl h)
    · intro d hd; simp only [List.mem_singleton] at hd; subst hd; exact ⟨hrs, hrs⟩
    · intro l hl d hd; cases hl; simp at hd
    · intro d hd; simp only [List.mem_singleton] at hd; subst hd; exact hr0
    · intro _
      refine ⟨fun d hd => by simp at hd, fun l hl d hd => by cases hl; simp at hd⟩
  · intro f hf; simp at hf
  intro cld0 hcld0
  rw [modify_default] at hcld0
  have hG0 := sound_mkproblemRdft2 hcld0
  apply Mk.Good.need
  · apply kosher_mkproblemRdft2s
    · split <;> simp
    · split <;> rfl
    · split
      · exact Nat.one_pos
      · exact hr0
  · intro f hf; simp at hf
  intro cldm hcldm
  rw [modify_default] at hcldm
  have hGm := sound_mkproblemRdft2s hcldm
  intro f hf
  obtain rfl := Option.some.inj hf
  refine ⟨hr, ?_⟩
  have hδm : ci + (((t.m / 2 : ℕ) : ℤ) * t.ms) - (cr + (((t.m / 2 : ℕ) : ℤ) * t.ms)) = t.δ := by
    rw [hδ]; show (ci.off + _) - (cr.off + _) = ci.off - cr.off; ring
  rw [hδm] at hGm
  rw [← hδ] at hG0
  clear hδm hδ
  simp only [decide_true, lastDim, List.getLast?_singleton, Option.getD_some, List.dropLast_singleton] at hG0
  apply Hc2cOK_of_LocD
  intro hn P
  set me := (t.m + 1) / 2 with hme
  have hb3 : 2 * me ≤ t.m + 1 := by omega
  have hb1 : 1 ≤ me := by omega
  have swp : ∀ x : ℤ, ∀ y : ℤ, P + t.δ + x + y = P + x + y + t.δ := by
    intro x y; simp only [Ptr.add_add]; congr 1; ring
  have swp1 : ∀ x : ℤ, P + t.δ + x = P + x + t.δ := by
    intro x; simp only [Ptr.add_add]; congr 1; ring
  -- one row of the vector
  have row : ∀ i < t.v, LocD (P.blk + 1) (adC t P) (ESet t i 0 (t.m / 2 + 1)) (ASet fwd t i 0 (t.m / 2 + 1)) (CFun via fwd t) (fun st =>
        let cr := P + (i : ℤ) * t.vs
        let ci := P + t.δ + (i : ℤ) * t.vs
        let st := cld0.rdft2Apply cr ci cr ci st
        if bufferedp then
          let st := batches (batchsize t.r) (batchsize_pos _) me (fun j bs =>
            withBuf (dobatchHc2c (c.W cexp t.r t.m) c t cr ci (cr + (t.m : ℤ) * t.ms) (ci + (t.m : ℤ) * t.ms) j bs)) 1 st
          let x : ℤ := (me : ℤ) * t.ms
          cldm.rdft2Apply (cr + x) (ci + x) (cr + x) (ci + x) st
        else
          let e : ℤ := ((t.m : ℤ) - 1) * t.ms
          let st := c.k (cr + t.ms) (ci + t.ms) (cr + e) (ci + e) (c.W cexp t.r t.m) ((t.m : ℤ) * t.ms) 1 me t.ms st
          cldm.rdft2Apply (cr + (((t.m / 2 : ℕ) : ℤ) * t.ms)) (ci + (((t.m / 2 : ℕ) : ℤ) * t.ms)) (cr + (((t.m / 2 : ℕ) : ℤ) * t.ms)) (ci + (((t.m / 2 : ℕ) : ℤ) * t.ms)) st) := by
    intro i hi
    have disj : ∀ (a b a' b' : ℕ), (b ≤ a' ∨ b' ≤ a) → ∀ x y : ℕ × ℕ × ℕ, ESet t i a b x → ESet t i a' b' y → adC t P x ≠ adC t P y := by
      rintro a b a' b' hab ⟨_, e, p⟩ ⟨_, e', q⟩ ⟨rfl, he, hp, h1, h2⟩ ⟨rfl, he', hq, h3, h4⟩ e
      have := (hn P _ hi _ he _ hp _ hi _ he' _ hq e).2.2
      simp only at this h1 h2 h3 h4
      subst this
      omega
    have glue : ∀ {a b d : ℕ}, a ≤ b → b ≤ d → ∀ {f g : State → State}, LocD (P.blk + 1) (adC t P) (ESet t i a b) (ASet fwd t i a b) (CFun via fwd t) f →
        LocD (P.blk + 1) (adC t P) (ESet t i b d) (ASet fwd t i b d) (CFun via fwd t) g →
        LocD (P.blk + 1) (adC t P) (ESet t i a d) (ASet fwd t i a d) (CFun via fwd t) (fun st => g (f st)) := by
      intro a b d hab hbd f g hf hg
      have key : ∀ x, ESet t i a b x ∨ ESet t i b d x ↔ ESet t i a d x := by
        intro x
        constructor
        · rintro (⟨h1, h2, h3, h4, h5⟩ | ⟨h1, h2, h3, h4, h5⟩) <;> exact ⟨h1, h2, h3, by omega, by omega⟩
        · rintro ⟨h1, h2, h3, h4, h5⟩
          by_cases h : hcCol t.m x.2.2 < b
          · exact Or.inl ⟨h1, h2, h3, h4, h⟩
          · exact Or.inr ⟨h1, h2, h3, by omega, h5⟩
      refine (hf.seq hg fun x y hx hy => disj _ _ _ _ (Or.inl le_rfl) x y hx hy).congr_set key fun x => ?_
      constructor
      · rintro (⟨h1, h2⟩ | ⟨h1, h2⟩)
        · exact ⟨(key x).1 (Or.inl h1), h2⟩
        · exact ⟨(key x).1 (Or.inr h1), h2⟩
      · rintro ⟨h1, h2⟩
        rcases (key x).2 h1 with h | h
        · exact Or.inl ⟨h, h2⟩
        · exact Or.inr ⟨h, h2⟩
    have l0 : LocD (P.blk + 1) (adC t P) (ESet t i 0 1) (ASet fwd t i 0 1) (CFun via fwd t)
        (cld0.rdft2Apply (P + (i : ℤ) * t.vs) (P + t.δ + (i : ℤ) * t.vs) (P + (i : ℤ) * t.vs) (P + t.δ + (i : ℤ) * t.vs)) := by
      rw [swp1]
      exact LocD_zero hn hi hr hr0 (by omega) rfl hG0
    have lm : ∀ x : ℕ, (t.m % 2 = 0 → x = t.m / 2) → LocD (P.blk + 1) (adC t P) (ESet t i me (t.m / 2 + 1)) (ASet fwd t i me (t.m / 2 + 1)) (CFun via fwd t)
        (cldm.rdft2Apply (P + (i : ℤ) * t.vs + (x : ℤ) * t.ms) (P + t.δ + (i : ℤ) * t.vs + (x : ℤ) * t.ms)
          (P + (i : ℤ) * t.vs + (x : ℤ) * t.ms) (P + t.δ + (i : ℤ) * t.vs + (x : ℤ) * t.ms)) := by
      intro x hx
      rw [swp]
      by_cases h0 : t.m % 2 = 1
      · rw [if_pos h0] at hGm
        exact LocD.nop (fun x ⟨_, _, _, h1, h2⟩ => by omega) (fun x hx => hx.1) fun st hst => ShiftOK_nop hGm (by simp only [Ptr.add_blk]; omega)
      · rw [if_neg h0] at hGm
        simp only [lastDim, List.getLast?_singleton, Option.getD_some] at hGm
        have hk : decide ((if fwd = true then R2Kind.R2HC else R2Kind.HC2R) = R2Kind.R2HC) = fwd := by cases fwd <;> rfl
        rw [hk] at hGm
        have hx := hx (by omega)
        have := LocD_mid (via := via) hn hi hr (l := t.m / 2) (by omega) (by omega) (P := P) rfl hGm
        rw [show me = t.m / 2 by omega, hx]
        exact this
    have lc : LocD (P.blk + 1) (adC t P) (ESet t i 1 me) (ASet fwd t i 1 me) (CFun via fwd t)
        (fun st => if bufferedp then
            batches (batchsize t.r) (batchsize_pos _) me (fun j bs =>
              withBuf (dobatchHc2c (c.W cexp t.r t.m) c t (P + (i : ℤ) * t.vs) (P + t.δ + (i : ℤ) * t.vs) (P + (i : ℤ) * t.vs + (t.m : ℤ) * t.ms)
                (P + t.δ + (i : ℤ) * t.vs + (t.m : ℤ) * t.ms) j bs)) 1 st
          else c.k (P + (i : ℤ) * t.vs + t.ms) (P + t.δ + (i : ℤ) * t.vs + t.ms) (P + (i : ℤ) * t.vs + ((t.m : ℤ) - 1) * t.ms)
            (P + t.δ + (i : ℤ) * t.vs + ((t.m : ℤ) - 1) * t.ms) (c.W cexp t.r t.m) ((t.m : ℤ) * t.ms) 1 me t.ms st) := by
      cases bufferedp
      · simp only [Bool.false_eq_true, if_false]
        have := hc.run t.m 1 me ((t.m : ℤ) * t.ms) t.ms (P + (i : ℤ) * t.vs + t.ms) (P + t.δ + (i : ℤ) * t.vs + t.ms) (P + (i : ℤ) * t.vs + ((t.m : ℤ) - 1) * t.ms)
            (P + t.δ + (i : ℤ) * t.vs + ((t.m : ℤ) - 1) * t.ms) (by omega) hb1 hb3
        rw [← hrc, ← hfwd] at this
        exact LocD_of_cols hn hi (by omega) hb3 hr (by omega) (by simp) (swp _ _) (by simp) (swp _ _) this
      · simp only [if_true]
        set b := batchsize t.r with hbd
        have hb0 : 0 < b := batchsize_pos _
        obtain ⟨q, hq1, hq2⟩ : ∃ q, (q = 0 ∨ 1 + q * b < me) ∧ me ≤ 1 + (q + 1) * b := by
          refine ⟨(me - 1 - 1) / b, ?_, ?_⟩
          · by_cases h : me - 1 - 1 < b
            · left; exact Nat.div_eq_of_lt h
            · right
              have := Nat.div_mul_le_self (me - 1 - 1) b
              omega
          · have := Nat.lt_div_mul_add hb0 (a := me - 1 - 1)
            rw [Nat.add_mul]; omega
        have hle : ∀ j < q, 1 + (j + 1) * b ≤ me := by
          intro j hj
          have : (j + 1) * b ≤ q * b := Nat.mul_le_mul_right _ hj
          rcases hq1 with h | h <;> omega
        have hle2 : 1 + q * b ≤ me := by
          rcases hq1 with h | h
          · subst h; omega
          · omega
        have := LocD.loop (b := P.blk + 1) (ad := adC t P) (F := CFun via fwd t) (N := q + 1)
          (E := fun j => ESet t i (1 + j * b) (1 + j * b + (if j < q then b else me - (1 + q * b))))
          (A := fun j => ASet fwd t i (1 + j * b) (1 + j * b + (if j < q then b else me - (1 + q * b))))
          (f := fun j => withBuf (dobatchHc2c (c.W cexp t.r t.m) c t (P + (i : ℤ) * t.vs) (P + t.δ + (i : ℤ) * t.vs) (P + (i : ℤ) * t.vs + (t.m : ℤ) * t.ms)
                (P + t.δ + (i : ℤ) * t.vs + (t.m : ℤ) * t.ms) (1 + j * b) (if j < q then b else me - (1 + q * b)))) ?_ ?_
        · have key : ∀ x, (∃ j < q + 1, ESet t i (1 + j * b) (1 + j * b + (if j < q then b else me - (1 + q * b))) x) ↔ ESet t i 1 me x := by
            intro x
            constructor
            · rintro ⟨j, hj, h1, h2, h3, h4, h5⟩
              refine ⟨h1, h2, h3, by omega, ?_⟩
              split at h5
              · have := hle j (by assumption); rw [Nat.add_mul] at this; omega
              · obtain rfl : j = q := by omega
                omega
            · rintro ⟨h1, h2, h3, h4, h5⟩
              have e1 := Nat.div_mul_le_self (hcCol t.m x.2.2 - 1) b
              have e2 := Nat.lt_div_mul_add hb0 (a := hcCol t.m x.2.2 - 1)
              have e3 : (hcCol t.m x.2.2 - 1) / b < q + 1 := Nat.div_lt_of_lt_mul (by rw [mul_comm]; omega)
              refine ⟨_, e3, h1, h2, h3, by omega, ?_⟩
              split
              · omega
              · rename_i h
                rw [show (hcCol t.m x.2.2 - 1) / b = q by omega]; omega
          refine (this.congr_set key fun x => ?_).congr_fun fun st => (batches_eq b hb0 me (fun j bs =>
              withBuf (dobatchHc2c (c.W cexp t.r t.m) c t (P + (i : ℤ) * t.vs) (P + t.δ + (i : ℤ) * t.vs) (P + (i : ℤ) * t.vs + (t.m : ℤ) * t.ms)
                (P + t.δ + (i : ℤ) * t.vs + (t.m : ℤ) * t.ms) j bs)) q 1 st hq1 hq2).symm
          constructor
          · rintro ⟨j, hj, h1, h2⟩
            exact ⟨(key x).1 ⟨j, hj, h1⟩, h2⟩
          · rintro ⟨h1, h2⟩
            obtain ⟨j, hj, h3⟩ := (key x).2 h1
            exact ⟨j, hj, h3, h2⟩
        · intro j hj
          have hbs : (if j < q then b else me - (1 + q * b)) ≤ b := by
            split
            · exact le_rfl
            · rw [Nat.add_mul] at hq2; omega
          have hend : 1 + j * b + (if j < q then b else me - (1 + q * b)) ≤ me := by
            split
            · have := hle j (by assumption); rw [Nat.add_mul] at this; omega
            · obtain rfl : j = q := by omega
              omega
          have := H2Cols_buf hc (t := t) hrc (Rp := P + (i : ℤ) * t.vs) (Ip := P + t.δ + (i : ℤ) * t.vs) (Rm := P + (i : ℤ) * t.vs + (t.m : ℤ) * t.ms)
            (Im := P + t.δ + (i : ℤ) * t.vs + (t.m : ℤ) * t.ms) hbs (j := 1 + j * b) (by omega) (by omega)
          rw [← hfwd] at this
          refine LocD_of_cols hn hi (by omega) (by omega) hr (by omega) rfl (swp _ _) ?_ ?_ this
          · simp only [Ptr.add_add]; congr 1; ring
          · simp only [Ptr.add_add]; congr 1; ring
        · intro j hj j' hj' hne x y hx hy
          refine disj _ _ _ _ ?_ x y hx hy
          rcases Nat.lt_or_gt_of_ne hne with h | h
          · left
            rw [if_pos (by omega)]
            have : (j + 1) * b ≤ j' * b := Nat.mul_le_mul_right _ h
            rw [Nat.add_mul] at this; omega
          · right
            rw [if_pos (by omega)]
            have : (j' + 1) * b ≤ j * b := Nat.mul_le_mul_right _ h
            rw [Nat.add_mul] at this; omega
    have l1 := glue (by omega) hb1 l0 lc
    cases bufferedp
    · simp only [Bool.false_eq_true, if_false] at l1 ⊢
      exact glue (by omega) (by omega) l1 (lm (t.m / 2) fun _ => rfl)
    · simp only [if_true] at l1 ⊢
      exact glue (by omega) (by omega) l1 (lm me fun h => by omega)
  exact LocD.loop row (by
    rintro i hi j hj hne ⟨_, e, p⟩ ⟨_, e', q⟩ ⟨rfl, he, hp, _, _⟩ ⟨rfl, he', hq, _, _⟩ e
    exact hne (hn P _ hi _ he _ hp _ hj _ he' _ hq e).1)

end FFTW.Rdft2S
