import Verif.Proofs.Hc2hc
import Verif.Proofs.Loc
import Verif.Proofs.Codelets
import Verif.Spec.CodeletHc

/-! # rdft/hc2hc-direct.c -/

namespace FFTW
open Tensor Spec

namespace RdftS
open DftS

/-- the elements of a twiddle step -/
def HcSet (t : HcP) (mb me : ℕ) (x : ℕ × ℕ) : Prop := x.1 < t.v ∧ x.2 < t.r * t.m ∧ mb ≤ hcCol t.m x.2 ∧ hcCol t.m x.2 < me

/-- their transformation -/
noncomputable def HcFun (fwd : Bool) (t : HcP) (u : ℕ × ℕ → ℝ) (x : ℕ × ℕ) : ℝ := hcStep fwd t.r t.m (fun p => u (x.1, p)) x.2

theorem HcOK_of_Loc {fwd : Bool} {t : HcP} {f : Ptr → State → State}
    (h : (offs [(t.r * t.m, t.s), (t.v, t.vs)]).Nodup → ∀ P : Ptr, Loc (P.blk + 1) (fun x : ℕ × ℕ => t.at P x.1 x.2) (HcSet t t.mb (t.mb + t.mc)) (HcFun fwd t) (f P)) :
    HcOK fwd t f := by
  intro hn P st hP
  obtain ⟨h1, h2⟩ := (h hn P).run st hP
  refine ⟨h1.mono ?_, ?_⟩
  · rintro q _ ⟨⟨i, p⟩, ⟨a, b, c, d⟩, rfl⟩
    exact ⟨i, a, p, b, c, d, rfl⟩
  · intro i hi p hp a b
    exact h2 (i, p) ⟨hi, hp, a, b⟩

theorem HcP.at_inj {t : HcP} (hn : (offs [(t.r * t.m, t.s), (t.v, t.vs)]).Nodup) {P : Ptr} {i p i' p' : ℕ} (hi : i < t.v) (hp : p < t.r * t.m)
    (hi' : i' < t.v) (hp' : p' < t.r * t.m) (h : t.at P i p = t.at P i' p') : i = i' ∧ p = p' := by
  simp only [HcP.at, Ptr.add_inj] at h
  obtain ⟨e1, e2⟩ := offs_cons_inj hn hp hp' (mem_offs1.2 ⟨i, hi, rfl⟩) (mem_offs1.2 ⟨i', hi', rfl⟩) h
  obtain ⟨e3, _⟩ := offs_cons_inj (offs_cons_nodup hn (by omega)) hi hi' (mem_offs_nil.2 rfl) (mem_offs_nil.2 rfl) (by simpa using e2)
  exact ⟨e3, e1⟩

/-- the elements of one column -/
theorem hcCol_iff {r m p : ℕ} (hm : m ≠ 0) : p < r * m ↔ ∃ k < r, ∃ l < m, p = k * m + l := by
  constructor
  · intro h
    obtain ⟨a, b, c⟩ := hc_split hm h
    exact ⟨_, a, _, b, c⟩
  · rintro ⟨k, hk, l, hl, rfl⟩
    calc k * m + l < k * m + m := by omega
      _ = (k + 1) * m := by ring
      _ ≤ r * m := Nat.mul_le_mul_right _ hk

theorem hcCol_at {m : ℕ} (k : ℕ) {l : ℕ} (hl : l < m) : hcCol m (k * m + l) = min l (m - l) := by rw [hcCol, hc_mod k hl]

/-- column `j`, part `c`, row `k` -/
def hcIx (m c j k : ℕ) : ℕ := k * m + (if c = 0 then j else m - j)

theorem hcIx_lt {r m c j k : ℕ} (hj : 0 < j) (hj2 : 2 * j < m) (hk : k < r) : hcIx m c j k < r * m :=
  (hcCol_iff (by omega)).2 ⟨k, hk, if c = 0 then j else m - j, by split <;> omega, rfl⟩

theorem hcIx_col {m c j : ℕ} (k : ℕ) (hj : 0 < j) (hj2 : 2 * j < m) : hcCol m (hcIx m c j k) = j := by
  rw [hcIx, hcCol_at k (by split <;> omega)]
  split <;> omega

theorem hcIx_inj {m c j k c' j' k' : ℕ} (hc : c < 2) (hj : 0 < j) (hj2 : 2 * j < m) (hc' : c' < 2) (hj' : 0 < j') (hj2' : 2 * j' < m)
    (h : hcIx m c j k = hcIx m c' j' k') : c = c' ∧ j = j' ∧ k = k' := by
  have e1 : j = j' := by rw [← hcIx_col (c := c) k hj hj2, h, hcIx_col k' hj' hj2']
  subst e1
  have e2 := congrArg (· % m) h
  simp only [hcIx] at e2
  rw [hc_mod k (by split <;> omega), hc_mod k' (by split <;> omega)] at e2
  have e3 : c = c' := by
    rcases (by omega : c = 0 ∨ c = 1) with rfl | rfl <;> rcases (by omega : c' = 0 ∨ c' = 1) with rfl | rfl <;> simp at e2 ⊢ <;> omega
  subst e3
  refine ⟨rfl, rfl, ?_⟩
  simp only [hcIx, add_left_inj] at h
  exact Nat.eq_of_mul_eq_mul_right (by omega) h

theorem hcIx_exists {r m p : ℕ} (hm : m ≠ 0) (hp : p < r * m) (h0 : 0 < hcCol m p) (h2 : 2 * hcCol m p < m) :
    ∃ c < 2, ∃ k < r, p = hcIx m c (hcCol m p) k := by
  obtain ⟨k, hk, l, hl, rfl⟩ := (hcCol_iff hm).1 hp
  rw [hcCol_at k hl] at *
  by_cases h : 2 * l < m
  · exact ⟨0, by omega, k, hk, by rw [hcIx, if_pos rfl]; omega⟩
  · exact ⟨1, by omega, k, hk, by rw [hcIx, if_neg (by omega)]; omega⟩

/-- the columns that a codelet transforms -/
theorem Loc_of_cols {fwd : Bool} {t : HcP} (hn : (offs [(t.r * t.m, t.s), (t.v, t.vs)]).Nodup) {P : Ptr} {i mb me : ℕ} (hi : i < t.v)
    (h0 : 0 < mb) (h2 : 2 * me ≤ t.m + 1) (hr : t.r ≠ 0) {f : State → State} {cr ci : Ptr}
    (ecr : cr = P + (i : ℤ) * t.vs + (mb : ℤ) * t.s) (eci : ci = P + (i : ℤ) * t.vs + ((t.m : ℤ) - (mb : ℤ)) * t.s)
    (h : HcCols fwd t.r t.m ((t.m : ℤ) * t.s) t.s mb me cr ci f) :
    Loc (P.blk + 1) (fun x : ℕ × ℕ => t.at P x.1 x.2) (fun x => x.1 = i ∧ x.2 < t.r * t.m ∧ mb ≤ hcCol t.m x.2 ∧ hcCol t.m x.2 < me) (HcFun fwd t) f := by
  have hat : ∀ c j k : ℕ, mb ≤ j → j < me → hcAt2 cr ci ((t.m : ℤ) * t.s) t.s mb c j k = t.at P i (hcIx t.m c j k) := by
    intro c j k hj hj2
    subst ecr eci
    simp only [hcAt2, HcP.at, hcIx]
    split
    · simp only [Ptr.add_add]; congr 1; push_cast; ring
    · simp only [Ptr.add_add]; congr 1
      rw [Nat.cast_add, Nat.cast_sub (by omega)]; push_cast; ring
  have inj : ∀ c j k c' j' k' : ℕ, c < 2 → mb ≤ j → j < me → k < t.r → c' < 2 → mb ≤ j' → j' < me → k' < t.r →
      hcAt2 cr ci ((t.m : ℤ) * t.s) t.s mb c j k = hcAt2 cr ci ((t.m : ℤ) * t.s) t.s mb c' j' k' → c = c' ∧ j = j' ∧ k = k' := by
    intro c j k c' j' k' hc hj hj2 hk hc' hj' hj2' hk' e
    rw [hat c j k hj hj2, hat c' j' k' hj' hj2'] at e
    exact hcIx_inj hc (by omega) (by omega) hc' (by omega) (by omega) (HcP.at_inj hn hi (hcIx_lt (by omega) (by omega) hk) hi (hcIx_lt (by omega) (by omega) hk') e).2
  refine ⟨?_, ?_, ?_⟩
  · rintro ⟨i', p⟩ -
    simp [HcP.at]
  · rintro u w e ⟨i', p⟩ ⟨rfl, hp, ha, hb⟩
    simp only at hp ha hb ⊢
    exact hcStep_congr hr (by rintro h; rw [h] at hp; simp at hp) hp fun q hq hcol => e (i', q) ⟨rfl, hq, by simp only at hcol ⊢; omega, by simp only at hcol ⊢; omega⟩
  · intro st hst
    obtain ⟨h1, h3⟩ := h inj st (by subst ecr; simp; omega) (by subst eci; simp; omega)
    refine ⟨h1.mono ?_, ?_⟩
    · rintro q _ ⟨c, j, k, hc, hj, hj2, hk, rfl⟩
      refine ⟨(i, hcIx t.m c j k), ⟨rfl, hcIx_lt (by omega) (by omega) hk, ?_, ?_⟩, hat c j k hj hj2⟩
      · simp only; rw [hcIx_col k (by omega) (by omega)]; exact hj
      · simp only; rw [hcIx_col k (by omega) (by omega)]; exact hj2
    · rintro ⟨i', p⟩ ⟨rfl, hp, ha, hb⟩
      simp only at hp ha hb ⊢
      have hm : t.m ≠ 0 := by rintro h; rw [h] at hp; simp at hp
      obtain ⟨c, hc, k, hk, e⟩ := hcIx_exists hm hp (by omega) (by omega)
      generalize hcCol t.m p = j at *
      subst e
      have h4 := h3 j k ha hb hk
      simp only [hat _ j _ ha hb] at h4
      have h5 := hcStep_col fwd hr (show 0 < j by omega) (show 2 * j < t.m by omega) (fun p => st.mem (t.at P i' p)) hk
      simp only [hcIx, if_true, if_neg (show ¬ (1 : ℕ) = 0 by omega)] at h4 h5
      rw [← h5] at h4
      simp only [HcFun]
      rcases (by omega : c = 0 ∨ c = 1) with rfl | rfl
      · exact congrArg Complex.re h4
      · exact congrArg Complex.im h4

/-- copies between an array and a buffer -/
theorem cpy_spec {cpy : Ptr → Ptr → ℕ → ℤ → ℤ → ℕ → ℤ → ℤ → ℕ → State → State}
    (hcpy : ∀ (L N : ℕ) (I O : Ptr) (n0 : ℕ) (is0 os0 : ℤ) (n1 : ℕ) (is1 os1 : ℤ), OutOfPlace (map2d I O n0 is0 os0 n1 is1 os1 1) →
      Below N (map2d I O n0 is0 os0 n1 is1 os1 1) → Copy.Does L N (map2d I O n0 is0 os0 n1 is1 os1 1) (cpy I O n0 is0 os0 n1 is1 os1 1))
    {I O : Ptr} {n0 n1 : ℕ} {is0 os0 is1 os1 : ℤ} {N : ℕ} {st : State} (hI : I.blk < N) (hO : O.blk < N) (hN : N ≤ st.next) (hne : I.blk ≠ O.blk)
    (hinj : ∀ i < n0, ∀ j < n1, ∀ i' < n0, ∀ j' < n1, (i : ℤ) * os0 + (j : ℤ) * os1 = (i' : ℤ) * os0 + (j' : ℤ) * os1 → i = i' ∧ j = j') :
    st.next ≤ (cpy I O n0 is0 os0 n1 is1 os1 1 st).next ∧
    (∀ i < n0, ∀ j < n1, (cpy I O n0 is0 os0 n1 is1 os1 1 st).mem (O + ((i : ℤ) * os0 + (j : ℤ) * os1)) = st.mem (I + ((i : ℤ) * is0 + (j : ℤ) * is1))) ∧
    ∀ q : Ptr, q.blk < N → (∀ i < n0, ∀ j < n1, q ≠ O + ((i : ℤ) * os0 + (j : ℤ) * os1)) → (cpy I O n0 is0 os0 n1 is1 os1 1 st).mem q = st.mem q := by
  have ho : OutOfPlace (map2d I O n0 is0 os0 n1 is1 os1 1) := by
    refine ⟨?_, ?_⟩
    · rintro _ ⟨i0, i1, v, h0, h1, hv, rfl⟩ _ ⟨i0', i1', v', h0', h1', hv', rfl⟩ h
      have h2 := congrArg Ptr.blk h
      exact hne h2
    · rintro _ ⟨i0, i1, v, h0, h1, hv, rfl⟩ _ ⟨i0', i1', v', h0', h1', hv', rfl⟩ h
      obtain rfl : v = 0 := by omega
      obtain rfl : v' = 0 := by omega
      simp only [Ptr.add_inj, Nat.cast_zero, add_zero] at h
      obtain ⟨rfl, rfl⟩ := hinj i0 h0 i1 h1 i0' h0' i1' h1' h
      rfl
  obtain ⟨h1, h2, h3⟩ := hcpy N N I O n0 is0 os0 n1 is1 os1 ho (Copy.below_map2d hI hO) st hN
  refine ⟨h1, fun i hi j hj => ?_, fun q hq hne => h3 q hq ?_⟩
  · have := h2 _ ⟨i, j, 0, hi, hj, by omega, rfl⟩
    simpa using this
  · rintro _ ⟨i, j, v, hi, hj, hv, rfl⟩
    obtain rfl : v = 0 := by omega
    have := hne i hi j hj
    simpa using this

theorem hcColumn_congr {fwd : Bool} {r m l k : ℕ} {x y : ℕ → ℂ} (hk : k < r) (h : ∀ j < r, x j = y j) : hcColumn fwd r m l x k = hcColumn fwd r m l y k := by
  unfold hcColumn
  have e3 : ∀ t, (∑ j ∈ Finset.range r, ω (r * m) ^ (j * (t * m + l)) * x j) = ∑ j ∈ Finset.range r, ω (r * m) ^ (j * (t * m + l)) * y j := fun t =>
    Finset.sum_congr rfl fun j hj => by rw [h j (Finset.mem_range.1 hj)]
  split
  · simp only [e3]
  · refine Finset.sum_congr rfl fun j hj => ?_
    have hj := Finset.mem_range.1 hj
    rw [h j hj, h (r - 1 - j) (by omega)]

/-- a batch through the buffer -/
theorem HcCols_buf {c : KHc2hc} {cexp : ℕ → ℤ → ℝ × ℝ} (hc : c.Sound cexp) {t : HcP} (hr : t.r = c.radix) {IOp IOm : Ptr} {j bs : ℕ} (hbs : bs ≤ batchsize t.r)
    (hj : 0 < j) (hj2 : 2 * (j + bs) ≤ t.m + 1) :
    HcCols c.fwd t.r t.m ((t.m : ℤ) * t.s) t.s j (j + bs) (IOp + (j : ℤ) * t.s) (IOm + (- (j : ℤ) * t.s)) (withBuf (dobatchHc (c.W cexp t.r t.m) c t IOp IOm j bs)) := by
  intro hinj st hp hm
  have hci := fun (L N : ℕ) (I O : Ptr) (n0 : ℕ) (is0 os0 : ℤ) (n1 : ℕ) (is1 os1 : ℤ) => @Copy.does_cpy2dCi L N I O n0 is0 os0 n1 is1 os1 1
  have hco := fun (L N : ℕ) (I O : Ptr) (n0 : ℕ) (is0 os0 : ℤ) (n1 : ℕ) (is1 os1 : ℤ) => @Copy.does_cpy2dCo L N I O n0 is0 os0 n1 is1 os1 1
  set rs : ℤ := (t.m : ℤ) * t.s
  set cr := IOp + (j : ℤ) * t.s
  set ci := IOm + (- (j : ℤ) * t.s)
  set bN := batchsize t.r
  have hB : st.fresh.blk = st.next := rfl
  set B := st.fresh
  set b : ℤ := 2 * (bN : ℤ)
  have hat0 : ∀ (x y : Ptr) (a e : ℤ) (i k : ℕ), hcAt2 x y a e j 0 (j + i) k = x + ((k : ℤ) * a + (i : ℤ) * e) := by
    intro x y a e i k
    simp only [hcAt2, if_true]; congr 1; push_cast; ring
  have hat1 : ∀ (x y : Ptr) (a e : ℤ) (i k : ℕ), hcAt2 x y a e j 1 (j + i) k = y + ((k : ℤ) * a + (i : ℤ) * (-e)) := by
    intro x y a e i k
    simp only [hcAt2, if_neg (show ¬ (1 : ℕ) = 0 by omega)]; congr 1; push_cast; ring
  -- positions in the buffer
  have hdiv : ∀ (k k' : ℕ) (x y : ℤ), 0 ≤ x → x < b → 0 ≤ y → y < b → (k : ℤ) * b + x = (k' : ℤ) * b + y → k = k' ∧ x = y := by
    intro k k' x y hx hxb hy hyb h
    have e1 : ((k : ℤ) * b + x) / b = k := by rw [add_comm, Int.add_mul_ediv_right _ _ (by omega), Int.ediv_eq_zero_of_lt hx hxb, zero_add]
    have e2 : ((k' : ℤ) * b + y) / b = k' := by rw [add_comm, Int.add_mul_ediv_right _ _ (by omega), Int.ediv_eq_zero_of_lt hy hyb, zero_add]
    rw [h, e2] at e1
    have : k = k' := by exact_mod_cast e1.symm
    subst this
    exact ⟨rfl, by linarith⟩
  have binj : ∀ c j1 k c' j' k' : ℕ, c < 2 → j ≤ j1 → j1 < j + bs → k < t.r → c' < 2 → j ≤ j' → j' < j + bs → k' < t.r →
      hcAt2 B (B + (b - 1)) b 1 j c j1 k = hcAt2 B (B + (b - 1)) b 1 j c' j' k' → c = c' ∧ j1 = j' ∧ k = k' := by
    intro c j1 k c' j' k' h1 h2 h3 h4 h5 h6 h7 h8 h
    obtain ⟨i, rfl⟩ := Nat.exists_eq_add_of_le h2
    obtain ⟨i', rfl⟩ := Nat.exists_eq_add_of_le h6
    rcases (by omega : c = 0 ∨ c = 1) with rfl | rfl <;> rcases (by omega : c' = 0 ∨ c' = 1) with rfl | rfl <;>
      simp only [hat0, hat1, Ptr.add_add, Ptr.add_inj] at h
    · obtain ⟨e1, e2⟩ := hdiv k k' i i' (by omega) (by omega) (by omega) (by omega) (by linarith)
      exact ⟨rfl, by omega, e1⟩
    · obtain ⟨e1, e2⟩ := hdiv k k' i (b - 1 - i') (by omega) (by omega) (by omega) (by omega) (by linarith)
      omega
    · obtain ⟨e1, e2⟩ := hdiv k k' (b - 1 - i) i' (by omega) (by omega) (by omega) (by omega) (by linarith)
      omega
    · obtain ⟨e1, e2⟩ := hdiv k k' (b - 1 - i) (b - 1 - i') (by omega) (by omega) (by omega) (by omega) (by linarith)
      exact ⟨rfl, by omega, e1⟩
  have hs0 : st.malloc.next = st.next + 1 := rfl
  obtain ⟨n1, g1, o1⟩ := cpy_spec hci (I := cr) (O := B) (n0 := t.r) (n1 := bs) (is0 := rs) (os0 := b) (is1 := t.s) (os1 := 1) (N := st.next + 1) (st := st.malloc)
    (by omega) (by omega) (by omega) (by omega) (by
      intro i hi k hk i' hi' k' hk' e
      obtain ⟨e1, e2⟩ := hdiv i i' k k' (by omega) (by omega) (by omega) (by omega) (by linarith)
      exact ⟨e1, by omega⟩)
  set st1 := Copy.cpy2dCi cr B t.r rs b bs t.s 1 1 st.malloc
  obtain ⟨n2, g2, o2⟩ := cpy_spec hci (I := ci) (O := B + (b - 1)) (n0 := t.r) (n1 := bs) (is0 := rs) (os0 := b) (is1 := -t.s) (os1 := -1) (N := st.next + 1) (st := st1)
    (by omega) (by simp only [Ptr.add_blk]; omega) (by omega) (by simp only [Ptr.add_blk]; omega) (by
      intro i hi k hk i' hi' k' hk' e
      obtain ⟨e1, e2⟩ := hdiv i i' (b - 1 - k) (b - 1 - k') (by omega) (by omega) (by omega) (by omega) (by linarith)
      exact ⟨e1, by omega⟩)
  set st2 := Copy.cpy2dCi ci (B + (b - 1)) t.r rs b bs (-t.s) (-1) 1 st1
  obtain ⟨f3, g3⟩ := hc t.m j (j + bs) b 1 B (B + (b - 1)) hj (by omega) hj2 (by rw [← hr]; exact binj) st2 (by omega) (by simp only [Ptr.add_blk]; omega)
  rw [← hr] at f3 g3
  set st3 := c.k B (B + (b - 1)) (c.W cexp t.r t.m) b j (j + bs) 1 st2
  have n3 := f3.next
  obtain ⟨n4, g4, o4⟩ := cpy_spec hco (I := B) (O := cr) (n0 := t.r) (n1 := bs) (is0 := b) (os0 := rs) (is1 := 1) (os1 := t.s) (N := st.next + 1) (st := st3)
    (by omega) (by omega) (by omega) (by omega) (by
      intro i hi k hk i' hi' k' hk' e
      have := hinj 0 (j + k) i 0 (j + k') i' (by omega) (by omega) (by omega) hi (by omega) (by omega) (by omega) hi' (by rw [hat0, hat0, e])
      omega)
  set st4 := Copy.cpy2dCo B cr t.r b rs bs 1 t.s 1 st3
  obtain ⟨n5, g5, o5⟩ := cpy_spec hco (I := B + (b - 1)) (O := ci) (n0 := t.r) (n1 := bs) (is0 := b) (os0 := rs) (is1 := -1) (os1 := -t.s) (N := st.next + 1) (st := st4)
    (by simp only [Ptr.add_blk]; omega) (by omega) (by omega) (by simp only [Ptr.add_blk]; omega) (by
      intro i hi k hk i' hi' k' hk' e
      have := hinj 1 (j + k) i 1 (j + k') i' (by omega) (by omega) (by omega) hi (by omega) (by omega) (by omega) hi' (by rw [hat1, hat1, e])
      omega)
  set st5 := Copy.cpy2dCo (B + (b - 1)) ci t.r b rs bs (-1) (-t.s) 1 st4
  have hfin : withBuf (dobatchHc (c.W cexp t.r t.m) c t IOp IOm j bs) st = { st5 with next := st.next } := rfl
  have hmem : (withBuf (dobatchHc (c.W cexp t.r t.m) c t IOp IOm j bs) st).mem = st5.mem := by rw [hfin]
  have hin : ∀ q : Ptr, q.blk < st.next → st3.mem q = st.mem q := by
    intro q hq
    have nB : ∀ (P : Ptr) (x : ℤ), P.blk = st.next → q ≠ P + x := by
      intro P x hP e
      have h2 := congrArg Ptr.blk e
      rw [Ptr.add_blk] at h2
      omega
    rw [f3.mem q (by omega), o2 q (by omega) fun i _ k _ => nB _ _ (by simp only [Ptr.add_blk]; omega), o1 q (by omega) fun i _ k _ => nB _ _ hB]
    · rfl
    · rintro ⟨c, j', k, _, _, _, _, e⟩
      unfold hcAt2 at e
      split at e
      · exact nB _ _ hB e
      · exact nB _ _ (by simp only [Ptr.add_blk]; omega) e
  have hrd : ∀ i < bs, ∀ k < t.r, (⟨st2.mem (hcAt2 B (B + (b - 1)) b 1 j 0 (j + i) k), st2.mem (hcAt2 B (B + (b - 1)) b 1 j 1 (j + i) k)⟩ : ℂ) =
      ⟨st.mem (hcAt2 cr ci rs t.s j 0 (j + i) k), st.mem (hcAt2 cr ci rs t.s j 1 (j + i) k)⟩ := by
    intro i hi k hk
    rw [hat0, hat1, hat0, hat1, g2 k hk i hi, o2, g1 k hk i hi]
    · congr 1
      rw [o1]
      · rfl
      · simp only [Ptr.add_blk]; omega
      · intro i' _ k' _ e
        have h2 := congrArg Ptr.blk e
        simp only [Ptr.add_blk] at h2
        omega
    · simp only [Ptr.add_blk]; omega
    · intro k' hk' i' hi' e
      have := binj 0 (j + i) k 1 (j + i') k' (by omega) (by omega) (by omega) hk (by omega) (by omega) (by omega) hk' (by rw [hat0, hat1, e])
      omega
  refine ⟨⟨?_, ?_⟩, ?_⟩
  · rw [hfin]
  · intro q hq hne
    rw [hmem, o5 q (by omega), o4 q (by omega), hin q hq]
    · intro k hk i hi e
      exact hne ⟨0, j + i, k, by omega, by omega, by omega, hk, by rw [hat0, e]⟩
    · intro k hk i hi e
      exact hne ⟨1, j + i, k, by omega, by omega, by omega, hk, by rw [hat1, e]⟩
  · intro j' k hj1 hj2 hk
    obtain ⟨i, rfl⟩ := Nat.exists_eq_add_of_le hj1
    have hi : i < bs := by omega
    rw [hmem]
    have e0 : st5.mem (hcAt2 cr ci rs t.s j 0 (j + i) k) = st3.mem (hcAt2 B (B + (b - 1)) b 1 j 0 (j + i) k) := by
      rw [hat0, hat0, o5, g4 k hk i hi]
      · simp only [Ptr.add_blk]; omega
      · intro k' hk' i' hi' e
        have := hinj 0 (j + i) k 1 (j + i') k' (by omega) (by omega) (by omega) hk (by omega) (by omega) (by omega) hk' (by rw [hat0, hat1, e])
        omega
    have e1 : st5.mem (hcAt2 cr ci rs t.s j 1 (j + i) k) = st3.mem (hcAt2 B (B + (b - 1)) b 1 j 1 (j + i) k) := by
      rw [hat1, hat1, g5 k hk i hi, o4]
      · simp only [Ptr.add_blk]; omega
      · intro k' _ i' _ e
        have h2 := congrArg Ptr.blk e
        simp only [Ptr.add_blk] at h2
        omega
    rw [e0, e1, g3 (j + i) k hj1 hj2 hk]
    exact hcColumn_congr hk fun k' hk' => hrd i hi k' hk'

theorem HcFun_dep {fwd : Bool} {t : HcP} (hr : t.r ≠ 0) {u w : ℕ × ℕ → ℝ} {i p : ℕ} (hp : p < t.r * t.m)
    (h : ∀ q < t.r * t.m, hcCol t.m q = hcCol t.m p → u (i, q) = w (i, q)) : HcFun fwd t u (i, p) = HcFun fwd t w (i, p) :=
  hcStep_congr hr (by rintro h; rw [h] at hp; simp at hp) hp h

/-- a transform along column `l`, for column 0 and the middle column -/
theorem Loc_col {fwd : Bool} {t : HcP} (hn : (offs [(t.r * t.m, t.s), (t.v, t.vs)]).Nodup) {P Q : Ptr} {i l : ℕ} (hi : i < t.v) (hl : l < t.m) {kind : RKind}
    (hQ : Q = P + (i : ℤ) * t.vs + (l : ℤ) * t.s)
    (hF : ∀ u : ℕ → ℝ, ∀ k < t.r, hcStep fwd t.r t.m u (k * t.m + l) = ∑ j ∈ Finset.range t.r, rK kind t.r j k * u (j * t.m + l))
    {nd : Bool} {g : Ptr → Ptr → State → State} (h : GOK rK [(⟨t.r, (t.m : ℤ) * t.s, (t.m : ℤ) * t.s⟩, kind)] (some []) 0 0 true nd g) :
    Loc (P.blk + 1) (fun x : ℕ × ℕ => t.at P x.1 x.2) (fun x => ∃ _c : Unit, True ∧ ∃ k < t.r, x = (i, k * t.m + l)) (HcFun fwd t) (g Q Q) := by
  refine Loc_gok h (by subst hQ; simp) (fun _ : Unit => True) (fun _ => 0) (by simp) ?_ ?_ (fun _ k => (i, k * t.m + l)) ?_ ?_
  · intro x
    show x ∈ offs [] ↔ _
    rw [mem_offs_nil]; simp
  · show (offs [(t.r, (t.m : ℤ) * t.s)]).Nodup
    rw [offs1_eq]
    refine Multiset.Nodup.map_on ?_ (Multiset.nodup_range _)
    intro k hk k' hk' e
    have hk := Multiset.mem_range.1 hk
    have hk' := Multiset.mem_range.1 hk'
    have := (HcP.at_inj (P := P) hn hi ((hcCol_iff (by omega)).2 ⟨k, hk, l, hl, rfl⟩) hi ((hcCol_iff (by omega)).2 ⟨k', hk', l, hl, rfl⟩) (by
      simp only [HcP.at]; congr 1; push_cast; linarith)).2
    exact Nat.eq_of_mul_eq_mul_right (show 0 < t.m by omega) (by omega)
  · intro _ k _ hk
    subst hQ
    simp only [HcP.at, Ptr.add_add]; congr 1; push_cast; ring
  · intro u _ k _ hk
    exact hF (fun p => u (i, p)) k hk

theorem col_iff {t : HcP} {i l : ℕ} (h2 : 2 * l ≤ t.m) (hl : l < t.m) (he : l = 0 ∨ 2 * l = t.m) (x : ℕ × ℕ) :
    (∃ _c : Unit, True ∧ ∃ k < t.r, x = (i, k * t.m + l)) ↔ x.1 = i ∧ x.2 < t.r * t.m ∧ l ≤ hcCol t.m x.2 ∧ hcCol t.m x.2 < l + 1 := by
  constructor
  · rintro ⟨_, _, k, hk, rfl⟩
    refine ⟨rfl, (hcCol_iff (by omega)).2 ⟨k, hk, l, hl, rfl⟩, ?_, ?_⟩ <;> simp only <;> rw [hcCol_at k hl] <;> omega
  · rintro ⟨rfl, hp, h3, h4⟩
    obtain ⟨k, hk, l', hl', e⟩ := (hcCol_iff (by omega)).1 hp
    rw [e, hcCol_at k hl'] at h3 h4
    refine ⟨(), trivial, k, hk, ?_⟩
    have : l' = l := by omega
    rw [← this, ← e]

theorem gok0_nop {nd : Bool} {g : Ptr → Ptr → State → State} (h : GOK rK ([] : List (Dim × RKind)) (some []) 0 0 true nd g) {Q : Ptr} {st : State}
    (hQ : Q.blk < st.next) : Frame st (g Q Q st) (fun _ => False) :=
  frame_gok0 h (by simp) (by simp [outs, offs]) hQ

variable [CLib]

/-- rdft/hc2hc-direct.c -/
theorem hc2hcDirect_sound {cexp : ℕ → ℤ → ℝ × ℝ} {c : KHc2hc} (hc : c.Sound cexp) (bufferedp : Bool) (taste : HcP → Flags → Bool) :
    HInferior.Sound (hc2hcDirect cexp c bufferedp taste) := by
  intro fwd t IO fl hr hm hmc hmm
  unfold hc2hcDirect
  split
  rotate_left
  · intro f hf; simp at hf
  rename_i happ
  obtain ⟨hr0, hfwd, _⟩ := happ
  dsimp only
  have hpos : ∀ k : RKind, PosK [((⟨t.r, (t.m : ℤ) * t.s, (t.m : ℤ) * t.s⟩ : Dim), k)] := by
    intro k e he; simp only [List.mem_singleton] at he; subst he; exact hr
  have hp0 : PosK (if t.mb = 0 then [((⟨t.r, (t.m : ℤ) * t.s, (t.m : ℤ) * t.s⟩ : Dim), hcKind fwd)] else []) := by
    split
    · exact hpos _
    · intro e he; simp at he
  have hpm : PosK (if 2 * (t.mb + t.mc) = t.m + 2 then [((⟨t.r, (t.m : ℤ) * t.s, (t.m : ℤ) * t.s⟩ : Dim), hcKindMid fwd)] else []) := by
    split
    · exact hpos _
    · intro e he; simp at he
  apply Mk.Good.need
  · refine kosher_mkproblemRdft hp0 (fun h => absurd rfl h) ?_
    rintro _ _ ⟨e, he, ht⟩ _
    exfalso
    split at he
    · simp only [List.mem_singleton] at he; subst he
      cases fwd <;> simp [hcKind, hcKindMid, RKind.reodft] at ht
    · simp at he
  · intro f hf; simp at hf
  intro cld0 hcld0
  rw [modify_default] at hcld0
  obtain ⟨hG0, _⟩ := sound_mkproblemRdft hp0 hcld0
  apply Mk.Good.need
  · refine kosher_mkproblemRdft hpm (fun h => absurd rfl h) ?_
    rintro _ _ ⟨e, he, ht⟩ _
    exfalso
    split at he
    · simp only [List.mem_singleton] at he; subst he
      cases fwd <;> simp [hcKind, hcKindMid, RKind.reodft] at ht
    · simp at he
  · intro f hf; simp at hf
  intro cldm hcldm
  rw [modify_default] at hcldm
  obtain ⟨hGm, _⟩ := sound_mkproblemRdft hpm hcldm
  intro f hf
  obtain rfl := Option.some.inj hf
  simp only [decide_true] at hG0 hGm
  apply HcOK_of_Loc
  intro hn P
  set mb := t.mb + (if t.mb = 0 then 1 else 0) with hmb
  set me := t.mb + t.mc - (if 2 * (t.mb + t.mc) = t.m + 2 then 1 else 0) with hme
  have hb1 : 0 < mb := by rw [hmb]; split <;> omega
  have hb2 : mb ≤ me := by rw [hmb, hme]; split <;> split <;> omega
  have hb3 : 2 * me ≤ t.m + 1 := by rw [hme]; split <;> omega
  have hb4 : t.mb ≤ mb := by omega
  have hb5 : me ≤ t.mb + t.mc := by omega
  -- one row of the vector
  have row : ∀ i < t.v, Loc (P.blk + 1) (fun x : ℕ × ℕ => t.at P x.1 x.2)
      (fun x => x.1 = i ∧ x.2 < t.r * t.m ∧ t.mb ≤ hcCol t.m x.2 ∧ hcCol t.m x.2 < t.mb + t.mc) (HcFun fwd t) (fun st =>
        let IO := P + (i : ℤ) * t.vs
        let st := cld0.rdftApply IO IO st
        let st :=
          if bufferedp then
            batches (batchsize t.r) (batchsize_pos _) me (fun j bs =>
              withBuf (dobatchHc (c.W cexp t.r t.m) c t IO (IO + (t.m : ℤ) * t.s) j bs)) mb st
          else c.k (IO + t.s * (mb : ℤ)) (IO + ((t.m : ℤ) - (mb : ℤ)) * t.s) (c.W cexp t.r t.m) ((t.m : ℤ) * t.s) mb me t.s st
        cldm.rdftApply (IO + (((t.m / 2 : ℕ) : ℤ) * t.s)) (IO + (((t.m / 2 : ℕ) : ℤ) * t.s)) st) := by
    intro i hi
    have disj : ∀ (a b a' b' : ℕ), (b ≤ a' ∨ b' ≤ a) → ∀ x y : ℕ × ℕ, (x.1 = i ∧ x.2 < t.r * t.m ∧ a ≤ hcCol t.m x.2 ∧ hcCol t.m x.2 < b) →
        (y.1 = i ∧ y.2 < t.r * t.m ∧ a' ≤ hcCol t.m y.2 ∧ hcCol t.m y.2 < b') → t.at P x.1 x.2 ≠ t.at P y.1 y.2 := by
      rintro a b a' b' hab ⟨_, p⟩ ⟨_, q⟩ ⟨rfl, hp, h1, h2⟩ ⟨rfl, hq, h3, h4⟩ e
      have := (HcP.at_inj hn hi hp hi hq e).2
      simp only at this h1 h2 h3 h4
      subst this
      omega
    have l0 : Loc (P.blk + 1) (fun x : ℕ × ℕ => t.at P x.1 x.2) (fun x => x.1 = i ∧ x.2 < t.r * t.m ∧ t.mb ≤ hcCol t.m x.2 ∧ hcCol t.m x.2 < mb) (HcFun fwd t)
        (cld0.rdftApply (P + (i : ℤ) * t.vs) (P + (i : ℤ) * t.vs)) := by
      by_cases h0 : t.mb = 0
      · rw [if_pos h0] at hG0 hmb
        refine (Loc_col hn (l := 0) hi hm (by simp) ?_ hG0).congr_set fun x => ?_
        · intro u k hk
          simp only [add_zero]
          rw [hcStep_zero fwd (by omega) (by omega) u hk]; rfl
        · rw [col_iff (by omega) hm (Or.inl rfl), hmb, h0]
      · rw [if_neg h0] at hG0 hmb
        exact Loc.nop (fun x ⟨_, _, h1, h2⟩ => by omega) fun st hst => gok0_nop hG0 (by simp only [Ptr.add_blk]; omega)
    have lm : Loc (P.blk + 1) (fun x : ℕ × ℕ => t.at P x.1 x.2) (fun x => x.1 = i ∧ x.2 < t.r * t.m ∧ me ≤ hcCol t.m x.2 ∧ hcCol t.m x.2 < t.mb + t.mc) (HcFun fwd t)
        (cldm.rdftApply (P + (i : ℤ) * t.vs + (((t.m / 2 : ℕ) : ℤ) * t.s)) (P + (i : ℤ) * t.vs + (((t.m / 2 : ℕ) : ℤ) * t.s))) := by
      by_cases h0 : 2 * (t.mb + t.mc) = t.m + 2
      · rw [if_pos h0] at hGm hme
        refine (Loc_col hn (l := t.m / 2) hi (by omega) rfl ?_ hGm).congr_set fun x => ?_
        · intro u k hk
          rw [hcStep_mid fwd (by omega) (show 2 * (t.m / 2) = t.m by omega) (by omega) u hk]; rfl
        · rw [col_iff (by omega) (by omega) (Or.inr (by omega)), show me = t.m / 2 by omega, show t.mb + t.mc = t.m / 2 + 1 by omega]
      · rw [if_neg h0] at hGm hme
        exact Loc.nop (fun x ⟨_, _, h1, h2⟩ => by omega) fun st hst => gok0_nop hGm (by simp only [Ptr.add_blk]; omega)
    have lc : Loc (P.blk + 1) (fun x : ℕ × ℕ => t.at P x.1 x.2) (fun x => x.1 = i ∧ x.2 < t.r * t.m ∧ mb ≤ hcCol t.m x.2 ∧ hcCol t.m x.2 < me) (HcFun fwd t)
        (fun st => if bufferedp then
            batches (batchsize t.r) (batchsize_pos _) me (fun j bs =>
              withBuf (dobatchHc (c.W cexp t.r t.m) c t (P + (i : ℤ) * t.vs) (P + (i : ℤ) * t.vs + (t.m : ℤ) * t.s) j bs)) mb st
          else c.k (P + (i : ℤ) * t.vs + t.s * (mb : ℤ)) (P + (i : ℤ) * t.vs + ((t.m : ℤ) - (mb : ℤ)) * t.s) (c.W cexp t.r t.m) ((t.m : ℤ) * t.s) mb me t.s st) := by
      cases bufferedp
      · simp only [Bool.false_eq_true, if_false]
        have := hc t.m mb me ((t.m : ℤ) * t.s) t.s (P + (i : ℤ) * t.vs + t.s * (mb : ℤ)) (P + (i : ℤ) * t.vs + ((t.m : ℤ) - (mb : ℤ)) * t.s) hb1 hb2 hb3
        rw [← hr0, ← hfwd] at this
        exact Loc_of_cols hn hi hb1 hb3 (by omega) (by rw [mul_comm t.s]) rfl this
      · simp only [if_true]
        set b := batchsize t.r with hbd
        have hb0 : 0 < b := batchsize_pos _
        obtain ⟨q, hq1, hq2⟩ : ∃ q, (q = 0 ∨ mb + q * b < me) ∧ me ≤ mb + (q + 1) * b := by
          refine ⟨(me - mb - 1) / b, ?_, ?_⟩
          · by_cases h : me - mb - 1 < b
            · left; exact Nat.div_eq_of_lt h
            · right
              have := Nat.div_mul_le_self (me - mb - 1) b
              omega
          · have := Nat.lt_div_mul_add hb0 (a := me - mb - 1)
            rw [Nat.add_mul]; omega
        have hle : ∀ j < q, mb + (j + 1) * b ≤ me := by
          intro j hj
          have : (j + 1) * b ≤ q * b := Nat.mul_le_mul_right _ hj
          rcases hq1 with h | h <;> omega
        have hle2 : mb + q * b ≤ me := by
          rcases hq1 with h | h
          · subst h; omega
          · omega
        have := Loc.loop (b := P.blk + 1) (ad := fun x : ℕ × ℕ => t.at P x.1 x.2) (F := HcFun fwd t) (N := q + 1)
          (A := fun j x => x.1 = i ∧ x.2 < t.r * t.m ∧ mb + j * b ≤ hcCol t.m x.2 ∧ hcCol t.m x.2 < mb + j * b + (if j < q then b else me - (mb + q * b)))
          (f := fun j => withBuf (dobatchHc (c.W cexp t.r t.m) c t (P + (i : ℤ) * t.vs) (P + (i : ℤ) * t.vs + (t.m : ℤ) * t.s) (mb + j * b) (if j < q then b else me - (mb + q * b)))) ?_ ?_
        · refine (this.congr_set fun x => ?_).congr_fun fun st => (batches_eq b hb0 me (fun j bs =>
              withBuf (dobatchHc (c.W cexp t.r t.m) c t (P + (i : ℤ) * t.vs) (P + (i : ℤ) * t.vs + (t.m : ℤ) * t.s) j bs)) q mb st hq1 hq2).symm
          constructor
          · rintro ⟨j, hj, h1, h2, h3, h4⟩
            refine ⟨h1, h2, by omega, ?_⟩
            split at h4
            · have := hle j (by assumption); rw [Nat.add_mul] at this; omega
            · obtain rfl : j = q := by omega
              omega
          · rintro ⟨h1, h2, h3, h4⟩
            have e1 := Nat.div_mul_le_self (hcCol t.m x.2 - mb) b
            have e2 := Nat.lt_div_mul_add hb0 (a := hcCol t.m x.2 - mb)
            have e3 : (hcCol t.m x.2 - mb) / b < q + 1 := Nat.div_lt_of_lt_mul (by rw [mul_comm]; omega)
            refine ⟨_, e3, h1, h2, by omega, ?_⟩
            split
            · omega
            · rename_i h
              rw [show (hcCol t.m x.2 - mb) / b = q by omega]; omega
        · intro j hj
          have hbs : (if j < q then b else me - (mb + q * b)) ≤ b := by
            split
            · exact le_rfl
            · rw [Nat.add_mul] at hq2; omega
          have hend : mb + j * b + (if j < q then b else me - (mb + q * b)) ≤ me := by
            split
            · have := hle j (by assumption); rw [Nat.add_mul] at this; omega
            · obtain rfl : j = q := by omega
              omega
          have := HcCols_buf hc (t := t) hr0 (IOp := P + (i : ℤ) * t.vs) (IOm := P + (i : ℤ) * t.vs + (t.m : ℤ) * t.s) hbs (j := mb + j * b) (by omega) (by omega)
          rw [← hfwd] at this
          exact Loc_of_cols hn hi (by omega) (by omega) (by omega) rfl (by simp only [Ptr.add_add]; congr 1; ring) this
        · intro j hj j' hj' hne x y hx hy
          refine disj _ _ _ _ ?_ x y hx hy
          rcases Nat.lt_or_gt_of_ne hne with h | h
          · left
            rw [if_pos (by omega)]
            have : (j + 1) * b ≤ j' * b := Nat.mul_le_mul_right _ h
            rw [Nat.add_mul] at this; omega
          · right
            rw [if_pos (by omega)]
            have : (j' + 1) * b ≤ j * b := Nat.mul_le_mul_right _ h
            rw [Nat.add_mul] at this; omega
    have l1 := (l0.seq lc (fun x y hx hy => disj _ _ _ _ (Or.inl le_rfl) x y hx hy)).congr_set (B := fun x => x.1 = i ∧ x.2 < t.r * t.m ∧ t.mb ≤ hcCol t.m x.2 ∧ hcCol t.m x.2 < me) fun x => by
      constructor
      · rintro (⟨h1, h2, h3, h4⟩ | ⟨h1, h2, h3, h4⟩) <;> exact ⟨h1, h2, by omega, by omega⟩
      · rintro ⟨h1, h2, h3, h4⟩
        by_cases h : hcCol t.m x.2 < mb
        · exact Or.inl ⟨h1, h2, h3, h⟩
        · exact Or.inr ⟨h1, h2, by omega, h4⟩
    exact (l1.seq lm (fun x y hx hy => disj _ _ _ _ (Or.inl le_rfl) x y hx hy)).congr_set fun x => by
      constructor
      · rintro (⟨h1, h2, h3, h4⟩ | ⟨h1, h2, h3, h4⟩) <;> exact ⟨h1, h2, by omega, by omega⟩
      · rintro ⟨h1, h2, h3, h4⟩
        by_cases h : hcCol t.m x.2 < me
        · exact Or.inl ⟨h1, h2, h3, h⟩
        · exact Or.inr ⟨h1, h2, by omega, h4⟩
  have := Loc.loop row (by
    rintro i hi j hj hne ⟨_, p⟩ ⟨_, q⟩ ⟨rfl, hp, _, _⟩ ⟨rfl, hq, _, _⟩ e
    exact hne (HcP.at_inj hn hi hp hj hq e).1)
  refine this.congr_set fun x => ?_
  constructor
  · rintro ⟨i, hi, rfl, h2, h3, h4⟩
    exact ⟨hi, h2, h3, h4⟩
  · rintro ⟨hi, h2, h3, h4⟩
    exact ⟨x.1, hi, rfl, h2, h3, h4⟩

end RdftS
end FFTW
