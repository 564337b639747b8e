import Verif.Proofs.Hc2cMath

/-! # rdft/ct-hc2c-direct.c: a batch through the buffer -/

namespace FFTW.Rdft2S
open Tensor Spec DftS

/-- copies of pairs between arrays and a buffer -/
theorem pair_spec {cpy : Ptr → Ptr → Ptr → Ptr → ℕ → ℤ → ℤ → ℕ → ℤ → ℤ → State → State}
    (hcpy : ∀ (L N : ℕ) (I0 I1 O0 O1 : Ptr) (n0 : ℕ) (is0 os0 : ℤ) (n1 : ℕ) (is1 os1 : ℤ), OutOfPlace (map2dPair I0 I1 O0 O1 n0 is0 os0 n1 is1 os1) →
      Below N (map2dPair I0 I1 O0 O1 n0 is0 os0 n1 is1 os1) → Copy.Does L N (map2dPair I0 I1 O0 O1 n0 is0 os0 n1 is1 os1) (cpy I0 I1 O0 O1 n0 is0 os0 n1 is1 os1))
    {I0 I1 O0 O1 : Ptr} {n0 n1 : ℕ} {is0 os0 is1 os1 : ℤ} {N : ℕ} {st : State} (hI0 : I0.blk < N) (hI1 : I1.blk < N) (hO0 : O0.blk < N) (hO1 : O1.blk < N) (hN : N ≤ st.next)
    (hne : ∀ e e' : ℕ, (if e = 0 then I0 else I1).blk ≠ (if e' = 0 then O0 else O1).blk)
    (hinj : ∀ e < 2, ∀ i < n0, ∀ j < n1, ∀ e' < 2, ∀ i' < n0, ∀ j' < n1, (if e = 0 then O0 else O1) + ((i : ℤ) * os0 + (j : ℤ) * os1) =
      (if e' = 0 then O0 else O1) + ((i' : ℤ) * os0 + (j' : ℤ) * os1) → e = e' ∧ i = i' ∧ j = j') :
    st.next ≤ (cpy I0 I1 O0 O1 n0 is0 os0 n1 is1 os1 st).next ∧
    (∀ e < 2, ∀ i < n0, ∀ j < n1, (cpy I0 I1 O0 O1 n0 is0 os0 n1 is1 os1 st).mem ((if e = 0 then O0 else O1) + ((i : ℤ) * os0 + (j : ℤ) * os1)) =
      st.mem ((if e = 0 then I0 else I1) + ((i : ℤ) * is0 + (j : ℤ) * is1))) ∧
    ∀ q : Ptr, q.blk < N → (∀ e < 2, ∀ i < n0, ∀ j < n1, q ≠ (if e = 0 then O0 else O1) + ((i : ℤ) * os0 + (j : ℤ) * os1)) →
      (cpy I0 I1 O0 O1 n0 is0 os0 n1 is1 os1 st).mem q = st.mem q := by
  have hm : ∀ x : Ptr × Ptr, x ∈ map2dPair I0 I1 O0 O1 n0 is0 os0 n1 is1 os1 ↔ ∃ e < 2, ∃ i < n0, ∃ j < n1,
      x = ((if e = 0 then I0 else I1) + ((i : ℤ) * is0 + (j : ℤ) * is1), (if e = 0 then O0 else O1) + ((i : ℤ) * os0 + (j : ℤ) * os1)) := by
    intro x
    simp only [map2dPair, map2d, Set.mem_union, Set.mem_setOf_eq]
    constructor
    · rintro (⟨i, j, v, hi, hj, hv, rfl⟩ | ⟨i, j, v, hi, hj, hv, rfl⟩)
      · obtain rfl : v = 0 := by omega
        exact ⟨0, by omega, i, hi, j, hj, by simp⟩
      · obtain rfl : v = 0 := by omega
        exact ⟨1, by omega, i, hi, j, hj, by simp⟩
    · rintro ⟨e, he, i, hi, j, hj, rfl⟩
      rcases (by omega : e = 0 ∨ e = 1) with rfl | rfl
      · exact Or.inl ⟨i, j, 0, hi, hj, by omega, by simp⟩
      · exact Or.inr ⟨i, j, 0, hi, hj, by omega, by simp⟩
  have ho : OutOfPlace (map2dPair I0 I1 O0 O1 n0 is0 os0 n1 is1 os1) := by
    refine ⟨?_, ?_⟩
    · intro x hx y hy h
      obtain ⟨e, he, i, hi, j, hj, rfl⟩ := (hm x).1 hx
      obtain ⟨e', he', i', hi', j', hj', rfl⟩ := (hm y).1 hy
      have h2 := congrArg Ptr.blk h
      simp only [Ptr.add_blk] at h2
      exact hne e' e h2
    · intro x hx y hy h
      obtain ⟨e, he, i, hi, j, hj, rfl⟩ := (hm x).1 hx
      obtain ⟨e', he', i', hi', j', hj', rfl⟩ := (hm y).1 hy
      obtain ⟨rfl, rfl, rfl⟩ := hinj e he i hi j hj e' he' i' hi' j' hj' h
      rfl
  have hb : Below N (map2dPair I0 I1 O0 O1 n0 is0 os0 n1 is1 os1) := by
    intro x hx
    obtain ⟨e, he, i, hi, j, hj, rfl⟩ := (hm x).1 hx
    simp only [Ptr.add_blk]
    constructor
    · split <;> assumption
    · split <;> assumption
  obtain ⟨h1, h2, h3⟩ := hcpy N N I0 I1 O0 O1 n0 is0 os0 n1 is1 os1 ho hb st hN
  refine ⟨h1, fun e he i hi j hj => h2 _ ((hm _).2 ⟨e, he, i, hi, j, hj, rfl⟩), fun q hq hq2 => h3 q hq ?_⟩
  intro x hx
  obtain ⟨e, he, i, hi, j, hj, rfl⟩ := (hm x).1 hx
  exact hq2 e he i hi j hj

theorem colRow_congr {via : Hc2cKind} {r b : ℕ} {w w' : ℕ → ℕ → ℕ → ℝ} (hr : r % 2 = 0) (hb : b < r)
    (h : ∀ s < 2, ∀ e < 2, ∀ q < r / 2, w s e q = w' s e q) : colRow via w b = colRow via w' b := by
  have hq : b / 2 < r / 2 := by omega
  cases via
  · simp only [colRow, h 0 (by omega) (b % 2) (by omega) _ hq, h 1 (by omega) (b % 2) (by omega) _ hq]
  · simp only [colRow, h 0 (by omega) 0 (by omega) _ hq, h 1 (by omega) 0 (by omega) _ hq, h 0 (by omega) 1 (by omega) _ hq, h 1 (by omega) 1 (by omega) _ hq]

theorem colSpec_congr {r t : ℕ} {w w' : ℕ → ℕ → ℕ → ℝ} (hr : r % 2 = 0) (ht : t < r)
    (h : ∀ s < 2, ∀ e < 2, ∀ q < r / 2, w s e q = w' s e q) : colSpec r w t = colSpec r w' t := by
  unfold colSpec
  split
  · rw [h 0 (by omega) 0 (by omega) _ (by omega), h 0 (by omega) 1 (by omega) _ (by omega)]
  · rw [h 1 (by omega) 0 (by omega) _ (by omega), h 1 (by omega) 1 (by omega) _ (by omega)]

/-- a batch through the buffer -/
theorem H2Cols_buf {via : Hc2cKind} {c : KHc2c} {cexp : ℕ → ℤ → ℝ × ℝ} (hc : c.Sound via cexp) {t : Hc2cP} (hr : t.r = c.radix) {Rp Ip Rm Im : Ptr} {j bs : ℕ}
    (hbs : bs ≤ batchsize t.r) (hj : 0 < j) (hj2 : 2 * (j + bs) ≤ t.m + 1) :
    H2Cols via c.fwd t.r t.m ((t.m : ℤ) * t.ms) t.ms j (j + bs) (Rp + (j : ℤ) * t.ms) (Ip + (j : ℤ) * t.ms) (Rm + -((j : ℤ) * t.ms)) (Im + -((j : ℤ) * t.ms))
      (withBuf (dobatchHc2c (c.W cexp t.r t.m) c t Rp Ip Rm Im j bs)) := by
  intro hinj st hp1 hp2 hm1 hm2
  have hev : t.r % 2 = 0 := by rw [hr]; exact hc.even
  have hci := fun (L N : ℕ) (I0 I1 O0 O1 : Ptr) (n0 : ℕ) (is0 os0 : ℤ) (n1 : ℕ) (is1 os1 : ℤ) => @Copy.does_cpy2dPairCi L N I0 I1 O0 O1 n0 is0 os0 n1 is1 os1
  have hco := fun (L N : ℕ) (I0 I1 O0 O1 : Ptr) (n0 : ℕ) (is0 os0 : ℤ) (n1 : ℕ) (is1 os1 : ℤ) => @Copy.does_cpy2dPairCo L N I0 I1 O0 O1 n0 is0 os0 n1 is1 os1
  set rs : ℤ := (t.m : ℤ) * t.ms
  set a0 := Rp + (j : ℤ) * t.ms
  set a1 := Ip + (j : ℤ) * t.ms
  set a2 := Rm + -((j : ℤ) * t.ms)
  set a3 := Im + -((j : ℤ) * t.ms)
  set bN := batchsize t.r
  have hB : st.fresh.blk = st.next := rfl
  set B := st.fresh
  set b : ℤ := 4 * (bN : ℤ)
  have hat0 : ∀ (x y z w : Ptr) (a d : ℤ) (i e k : ℕ), h2At x y z w a d j (j + i) 0 e k = (if e = 0 then x else y) + ((k : ℤ) * a + (i : ℤ) * d) := by
    intro x y z w a d i e k
    simp only [h2At, if_true]; congr 1; push_cast; ring
  have hat1 : ∀ (x y z w : Ptr) (a d : ℤ) (i e k : ℕ), h2At x y z w a d j (j + i) 1 e k = (if e = 0 then z else w) + ((k : ℤ) * a + (i : ℤ) * (-d)) := by
    intro x y z w a d i e k
    simp only [h2At, if_neg (show ¬ (1 : ℕ) = 0 by omega)]; congr 1; push_cast; ring
  -- positions in the buffer
  have hdiv : ∀ (k k' : ℕ) (x y : ℤ), 0 ≤ x → x < b → 0 ≤ y → y < b → (k : ℤ) * b + x = (k' : ℤ) * b + y → k = k' ∧ x = y := by
    intro k k' x y hx hxb hy hyb h
    have e1 : ((k : ℤ) * b + x) / b = k := by rw [add_comm, Int.add_mul_ediv_right _ _ (by omega), Int.ediv_eq_zero_of_lt hx hxb, zero_add]
    have e2 : ((k' : ℤ) * b + y) / b = k' := by rw [add_comm, Int.add_mul_ediv_right _ _ (by omega), Int.ediv_eq_zero_of_lt hy hyb, zero_add]
    rw [h, e2] at e1
    have : k = k' := by exact_mod_cast e1.symm
    subst this
    exact ⟨rfl, by linarith⟩
  set Bm := B + (b - 2) with hBm
  have hif0 : ∀ e < 2, (if e = 0 then B else B + (1 : ℤ)) = B + ((e : ℕ) : ℤ) := by
    intro e he
    rcases (by omega : e = 0 ∨ e = 1) with rfl | rfl <;> simp
  have hif1 : ∀ e < 2, (if e = 0 then Bm else Bm + (1 : ℤ)) = B + (b - 2 + ((e : ℕ) : ℤ)) := by
    intro e he
    rcases (by omega : e = 0 ∨ e = 1) with rfl | rfl <;> simp [hBm, Ptr.add_add]
  have blk0 : ∀ e : ℕ, (if e = 0 then B else B + (1 : ℤ)).blk = st.next := by intro e; split <;> rfl
  have blk1 : ∀ e : ℕ, (if e = 0 then Bm else Bm + (1 : ℤ)).blk = st.next := by intro e; split <;> rfl
  have blka : ∀ e : ℕ, (if e = 0 then a0 else a1).blk < st.next := by intro e; split <;> assumption
  have blkb : ∀ e : ℕ, (if e = 0 then a2 else a3).blk < st.next := by intro e; split <;> assumption
  have binj : ∀ j1 s e k j' s' e' k' : ℕ, j ≤ j1 → j1 < j + bs → s < 2 → e < 2 → k < t.r / 2 → j ≤ j' → j' < j + bs → s' < 2 → e' < 2 → k' < t.r / 2 →
      h2At B (B + (1 : ℤ)) Bm (Bm + (1 : ℤ)) b 2 j j1 s e k = h2At B (B + (1 : ℤ)) Bm (Bm + (1 : ℤ)) b 2 j j' s' e' k' → j1 = j' ∧ s = s' ∧ e = e' ∧ k = k' := by
    intro j1 s e k j' s' e' k' h1 h2 h3 h4 h5 h6 h7 h8 h9 h10 h
    obtain ⟨i, rfl⟩ := Nat.exists_eq_add_of_le h1
    obtain ⟨i', rfl⟩ := Nat.exists_eq_add_of_le h6
    rcases (by omega : s = 0 ∨ s = 1) with rfl | rfl <;> rcases (by omega : s' = 0 ∨ s' = 1) with rfl | rfl <;>
      simp only [hat0, hat1, hif0 e h4, hif0 e' h9, hif1 e h4, hif1 e' h9, Ptr.add_add, Ptr.add_inj] at h
    · obtain ⟨e1, e2⟩ := hdiv k k' (e + i * 2) (e' + i' * 2) (by omega) (by omega) (by omega) (by omega) (by linarith)
      omega
    · obtain ⟨e1, e2⟩ := hdiv k k' (e + i * 2) (b - 2 + e' - i' * 2) (by omega) (by omega) (by omega) (by omega) (by linarith)
      omega
    · obtain ⟨e1, e2⟩ := hdiv k k' (b - 2 + e - i * 2) (e' + i' * 2) (by omega) (by omega) (by omega) (by omega) (by linarith)
      omega
    · obtain ⟨e1, e2⟩ := hdiv k k' (b - 2 + e - i * 2) (b - 2 + e' - i' * 2) (by omega) (by omega) (by omega) (by omega) (by linarith)
      omega
  have hs0 : st.malloc.next = st.next + 1 := rfl
  have hBm' : Bm.blk = st.next := rfl
  have hB1 : (B + (1 : ℤ)).blk = st.next := rfl
  have hB2 : (Bm + (1 : ℤ)).blk = st.next := rfl
  obtain ⟨n1, g1, o1⟩ := pair_spec hci (I0 := a0) (I1 := a1) (O0 := B) (O1 := B + (1 : ℤ)) (n0 := t.r / 2) (n1 := bs) (is0 := rs) (os0 := b) (is1 := t.ms) (os1 := 2)
    (N := st.next + 1) (st := st.malloc) (by omega) (by omega) (by omega) (by omega) (by omega)
    (by intro e e'; have := blka e; have := blk0 e'; omega) (by
      intro e he i hi k hk e' he' i' hi' k' hk' h
      have := binj (j + k) 0 e i (j + k') 0 e' i' (by omega) (by omega) (by omega) he hi (by omega) (by omega) (by omega) he' hi' (by rw [hat0, hat0]; exact h)
      omega)
  set st1 := Copy.cpy2dPairCi a0 a1 B (B + (1 : ℤ)) (t.r / 2) rs b bs t.ms 2 st.malloc
  obtain ⟨n2, g2, o2⟩ := pair_spec hci (I0 := a2) (I1 := a3) (O0 := Bm) (O1 := Bm + (1 : ℤ)) (n0 := t.r / 2) (n1 := bs) (is0 := rs) (os0 := b) (is1 := -t.ms) (os1 := -2)
    (N := st.next + 1) (st := st1) (by omega) (by omega) (by omega) (by omega) (by omega)
    (by intro e e'; have := blkb e; have := blk1 e'; omega) (by
      intro e he i hi k hk e' he' i' hi' k' hk' h
      have := binj (j + k) 1 e i (j + k') 1 e' i' (by omega) (by omega) (by omega) he hi (by omega) (by omega) (by omega) he' hi' (by rw [hat1, hat1]; exact h)
      omega)
  set st2 := Copy.cpy2dPairCi a2 a3 Bm (Bm + (1 : ℤ)) (t.r / 2) rs b bs (-t.ms) (-2) st1
  obtain ⟨f3, g3⟩ := hc.run t.m j (j + bs) b 2 B (B + (1 : ℤ)) Bm (Bm + (1 : ℤ)) hj (by omega) hj2 (by rw [← hr]; exact binj) st2 (by omega) (by omega) (by omega) (by omega)
  rw [← hr] at f3 g3
  set st3 := c.k B (B + (1 : ℤ)) Bm (Bm + (1 : ℤ)) (c.W cexp t.r t.m) b j (j + bs) 2 st2
  have n3 := f3.next
  obtain ⟨n4, g4, o4⟩ := pair_spec hco (I0 := B) (I1 := B + (1 : ℤ)) (O0 := a0) (O1 := a1) (n0 := t.r / 2) (n1 := bs) (is0 := b) (os0 := rs) (is1 := 2) (os1 := t.ms)
    (N := st.next + 1) (st := st3) (by omega) (by omega) (by omega) (by omega) (by omega)
    (by intro e e'; have := blka e'; have := blk0 e; omega) (by
      intro e he i hi k hk e' he' i' hi' k' hk' h
      have := hinj (j + k) 0 e i (j + k') 0 e' i' (by omega) (by omega) (by omega) he hi (by omega) (by omega) (by omega) he' hi' (by rw [hat0, hat0]; exact h)
      omega)
  set st4 := Copy.cpy2dPairCo B (B + (1 : ℤ)) a0 a1 (t.r / 2) b rs bs 2 t.ms st3
  obtain ⟨n5, g5, o5⟩ := pair_spec hco (I0 := Bm) (I1 := Bm + (1 : ℤ)) (O0 := a2) (O1 := a3) (n0 := t.r / 2) (n1 := bs) (is0 := b) (os0 := rs) (is1 := -2) (os1 := -t.ms)
    (N := st.next + 1) (st := st4) (by omega) (by omega) (by omega) (by omega) (by omega)
    (by intro e e'; have := blkb e'; have := blk1 e; omega) (by
      intro e he i hi k hk e' he' i' hi' k' hk' h
      have := hinj (j + k) 1 e i (j + k') 1 e' i' (by omega) (by omega) (by omega) he hi (by omega) (by omega) (by omega) he' hi' (by rw [hat1, hat1]; exact h)
      omega)
  set st5 := Copy.cpy2dPairCo Bm (Bm + (1 : ℤ)) a2 a3 (t.r / 2) b rs bs (-2) (-t.ms) st4
  have hfin : withBuf (dobatchHc2c (c.W cexp t.r t.m) c t Rp Ip Rm Im j bs) st = { st5 with next := st.next } := rfl
  have hmem : (withBuf (dobatchHc2c (c.W cexp t.r t.m) c t Rp Ip Rm Im j bs) st).mem = st5.mem := by rw [hfin]
  have nB : ∀ (q P : Ptr) (x : ℤ), q.blk < st.next → P.blk = st.next → q ≠ P + x := by
    intro q P x hq hP e
    have h2 := congrArg Ptr.blk e
    rw [Ptr.add_blk] at h2
    omega
  have hin : ∀ q : Ptr, q.blk < st.next → st3.mem q = st.mem q := by
    intro q hq
    rw [f3.mem q (by omega), o2 q (by omega) fun e _ i _ k _ => nB q _ _ hq (blk1 e), o1 q (by omega) fun e _ i _ k _ => nB q _ _ hq (blk0 e)]
    · rfl
    · rintro ⟨j', s, e, k, _, _, _, _, _, h⟩
      unfold h2At at h
      split at h
      · exact nB q _ _ hq (blk0 e) h
      · exact nB q _ _ hq (blk1 e) h
  -- what the codelet reads
  have hrd : ∀ i < bs, ∀ s < 2, ∀ e < 2, ∀ k < t.r / 2, st2.mem (h2At B (B + (1 : ℤ)) Bm (Bm + (1 : ℤ)) b 2 j (j + i) s e k) = st.mem (h2At a0 a1 a2 a3 rs t.ms j (j + i) s e k) := by
    intro i hi s hs e he k hk
    rcases (by omega : s = 0 ∨ s = 1) with rfl | rfl
    · rw [hat0, hat0, o2, g1 e he k hk i hi]
      · rfl
      · rw [Ptr.add_blk, blk0]; omega
      · intro e' he' k' hk' i' hi' h
        have := binj (j + i) 0 e k (j + i') 1 e' k' (by omega) (by omega) (by omega) he hk (by omega) (by omega) (by omega) he' hk' (by rw [hat0, hat1]; exact h)
        omega
    · rw [hat1, hat1, g2 e he k hk i hi, o1]
      · rfl
      · rw [Ptr.add_blk]; have := blkb e; omega
      · intro e' he' k' hk' i' hi'
        exact nB _ _ _ (by rw [Ptr.add_blk]; exact blkb e) (blk0 e')
  -- what is written back
  have hwr : ∀ i < bs, ∀ s < 2, ∀ e < 2, ∀ k < t.r / 2, st5.mem (h2At a0 a1 a2 a3 rs t.ms j (j + i) s e k) = st3.mem (h2At B (B + (1 : ℤ)) Bm (Bm + (1 : ℤ)) b 2 j (j + i) s e k) := by
    intro i hi s hs e he k hk
    rcases (by omega : s = 0 ∨ s = 1) with rfl | rfl
    · rw [hat0, hat0, o5, g4 e he k hk i hi]
      · rw [Ptr.add_blk]; have := blka e; omega
      · intro e' he' k' hk' i' hi' h
        have := hinj (j + i) 0 e k (j + i') 1 e' k' (by omega) (by omega) (by omega) he hk (by omega) (by omega) (by omega) he' hk' (by rw [hat0, hat1]; exact h)
        omega
    · rw [hat1, hat1, g5 e he k hk i hi, o4]
      · rw [Ptr.add_blk, blk1]; omega
      · intro e' he' k' hk' i' hi' h
        have h2 := congrArg Ptr.blk h
        rw [Ptr.add_blk, Ptr.add_blk, blk1] at h2
        have := blka e'
        omega
  refine ⟨⟨?_, ?_⟩, ?_⟩
  · rw [hfin]
  · intro q hq hne
    rw [hmem, o5 q (by omega), o4 q (by omega), hin q hq]
    · intro e he k hk i hi h
      exact hne ⟨j + i, 0, e, k, by omega, by omega, by omega, he, hk, by rw [hat0]; exact h⟩
    · intro e he k hk i hi h
      exact hne ⟨j + i, 1, e, k, by omega, by omega, by omega, he, hk, by rw [hat1]; exact h⟩
  · intro j' hj1 hj2
    obtain ⟨i, rfl⟩ := Nat.exists_eq_add_of_le hj1
    have hi : i < bs := by omega
    simp only [hmem]
    have h4 := g3 (j + i) hj1 hj2
    simp only at h4
    split
    · rename_i hf
      rw [if_pos hf] at h4
      intro k hk
      rw [colSpec_congr hev hk (hwr i hi), h4 k hk]
      exact Finset.sum_congr rfl fun x hx => by rw [colRow_congr hev (Finset.mem_range.1 hx) (hrd i hi)]
    · rename_i hf
      rw [if_neg hf] at h4
      intro k hk
      rw [colRow_congr hev hk (hwr i hi), h4 k hk]
      exact Finset.sum_congr rfl fun x hx => by rw [colSpec_congr hev (Finset.mem_range.1 hx) (hrd i hi)]

end FFTW.Rdft2S
