import Verif.Proofs.Copy
import Verif.Proofs.Transpose
import Verif.Proofs.Primes2

/-!
# C32: copies and square transposes

`Copies M st st'` (Spec/Copy) says that every pair (source, destination) of `M` has been copied, sources being read before the operation,
and that no other location of the caller has changed.
-/

namespace FFTW.Copy
open Spec

variable {st : State}

/-! ### copies -/

/-- C32: `cpy1d` -/
theorem C32_cpy1d (I O : Ptr) (n : ℕ) (is os : ℤ) (vl : ℕ) (ho : OutOfPlace (map1d I O n is os vl)) (hI : I.blk < st.next) (hO : O.blk < st.next) :
    Copies (map1d I O n is os vl) st (cpy1d I O n is os vl st) :=
  (does_cpy1d ho (by rintro _ ⟨i0, v, h0, hv, rfl⟩; exact ⟨hI, hO⟩)).copies

/-- C32: `cpy2d`, `cpy2d_ci` and `cpy2d_co` perform the same copy; they differ in loop order only -/
theorem C32_cpy2d (I O : Ptr) (n0 : ℕ) (is0 os0 : ℤ) (n1 : ℕ) (is1 os1 : ℤ) (vl : ℕ) (ho : OutOfPlace (map2d I O n0 is0 os0 n1 is1 os1 vl))
    (hI : I.blk < st.next) (hO : O.blk < st.next) :
    Copies (map2d I O n0 is0 os0 n1 is1 os1 vl) st (cpy2d I O n0 is0 os0 n1 is1 os1 vl st) ∧
    Copies (map2d I O n0 is0 os0 n1 is1 os1 vl) st (cpy2dCi I O n0 is0 os0 n1 is1 os1 vl st) ∧
    Copies (map2d I O n0 is0 os0 n1 is1 os1 vl) st (cpy2dCo I O n0 is0 os0 n1 is1 os1 vl st) :=
  ⟨(does_cpy2d ho (below_map2d hI hO)).copies, (does_cpy2dCi ho (below_map2d hI hO)).copies, (does_cpy2dCo ho (below_map2d hI hO)).copies⟩

/-- C32: tiled copy, for any tile size -/
theorem C32_cpy2d_tiled (t : ℕ) (ht : 0 < t) (I O : Ptr) (n0 : ℕ) (is0 os0 : ℤ) (n1 : ℕ) (is1 os1 : ℤ) (vl : ℕ) (ho : OutOfPlace (map2d I O n0 is0 os0 n1 is1 os1 vl))
    (hI : I.blk < st.next) (hO : O.blk < st.next) :
    Copies (map2d I O n0 is0 os0 n1 is1 os1 vl) st (cpy2dTiled t ht I O n0 is0 os0 n1 is1 os1 vl st) :=
  (does_cpy2dTiled ho (below_map2d hI hO)).copies

/-- C32: tiled copy through a buffer, for any tile size -/
theorem C32_cpy2d_tiledbuf (t : ℕ) (ht : 0 < t) (I O : Ptr) (n0 : ℕ) (is0 os0 : ℤ) (n1 : ℕ) (is1 os1 : ℤ) (vl : ℕ) (ho : OutOfPlace (map2d I O n0 is0 os0 n1 is1 os1 vl))
    (hinj : ∀ i0 i1 v i0' i1' v' : ℕ, i0 < n0 → i1 < n1 → v < vl → i0' < n0 → i1' < n1 → v' < vl →
      (i0 : ℤ) * os0 + (i1 : ℤ) * os1 + v = (i0' : ℤ) * os0 + (i1' : ℤ) * os1 + v' → i0 = i0' ∧ i1 = i1' ∧ v = v')
    (hI : I.blk < st.next) (hO : O.blk < st.next) :
    Copies (map2d I O n0 is0 os0 n1 is1 os1 vl) st (cpy2dTiledbuf t ht I O n0 is0 os0 n1 is1 os1 vl st) :=
  (does_cpy2dTiledbuf ho hinj hI hO).copies

/-- C32: copies of two arrays at once -/
theorem C32_cpy2d_pair (I0 I1 O0 O1 : Ptr) (n0 : ℕ) (is0 os0 : ℤ) (n1 : ℕ) (is1 os1 : ℤ) (ho : OutOfPlace (map2dPair I0 I1 O0 O1 n0 is0 os0 n1 is1 os1))
    (hI0 : I0.blk < st.next) (hI1 : I1.blk < st.next) (hO0 : O0.blk < st.next) (hO1 : O1.blk < st.next) :
    Copies (map2dPair I0 I1 O0 O1 n0 is0 os0 n1 is1 os1) st (cpy2dPair I0 I1 O0 O1 n0 is0 os0 n1 is1 os1 st) ∧
    Copies (map2dPair I0 I1 O0 O1 n0 is0 os0 n1 is1 os1) st (cpy2dPairCi I0 I1 O0 O1 n0 is0 os0 n1 is1 os1 st) ∧
    Copies (map2dPair I0 I1 O0 O1 n0 is0 os0 n1 is1 os1) st (cpy2dPairCo I0 I1 O0 O1 n0 is0 os0 n1 is1 os1 st) := by
  have hb : Below st.next (map2dPair I0 I1 O0 O1 n0 is0 os0 n1 is1 os1) := by
    rintro e (he | he)
    · exact below_map2d hI0 hO0 e he
    · exact below_map2d hI1 hO1 e he
  exact ⟨(does_cpy2dPair ho hb).copies, (does_cpy2dPairCi ho hb).copies, (does_cpy2dPairCo ho hb).copies⟩

/-- C32: `zero1d_pair` clears exactly the elements it is told to clear -/
theorem C32_zero1d_pair (O0 O1 : Ptr) (n : ℕ) (os : ℤ) :
    (∀ i < n, (zero1dPair O0 O1 n os st).mem (O0 + (i : ℤ) * os) = 0 ∧ (zero1dPair O0 O1 n os st).mem (O1 + (i : ℤ) * os) = 0) ∧
    ∀ q : Ptr, (∀ i < n, q ≠ O0 + (i : ℤ) * os ∧ q ≠ O1 + (i : ℤ) * os) → (zero1dPair O0 O1 n os st).mem q = st.mem q := by
  unfold zero1dPair
  induction n with
  | zero => exact ⟨by simp, fun _ _ => rfl⟩
  | succ n ih =>
    simp only [forN]
    have z : ∀ (s : State) (p q : Ptr), (s.set p 0).mem q = if q = p then 0 else s.mem q := fun s p q => by
      split
      · rename_i h; subst h; simp
      · rename_i h; exact State.set_mem_ne _ h _
    refine ⟨fun i hi => ?_, fun q hq => ?_⟩
    · simp only [z]
      by_cases h : i = n
      · subst h; simp
      · rw [(ih.1 i (by omega)).1, (ih.1 i (by omega)).2]; simp
    · simp only [z, (hq n (by omega)).1, (hq n (by omega)).2, if_false]
      exact ih.2 q fun i hi => hq i (by omega)

/-! ### transposes -/

/-- distinct matrix elements are at distinct places -/
def Distinct (n : ℕ) (s0 s1 : ℤ) (vl : ℕ) : Prop := ∀ i0 i1 v i0' i1' v' : ℕ, i0 < n → i1 < n → v < vl → i0' < n → i1' < n → v' < vl →
  (i0 : ℤ) * s0 + (i1 : ℤ) * s1 + v = (i0' : ℤ) * s0 + (i1' : ℤ) * s1 + v' → i0 = i0' ∧ i1 = i1' ∧ v = v'

/-- C32: the three in-place square transposes exchange element `(i, j)` with element `(j, i)` for all `i`, `j`, and touch nothing else -/
theorem C32_transpose (t : ℕ) (ht : 0 < t) (I : Ptr) (n : ℕ) (s0 s1 : ℤ) (vl : ℕ) (h : Distinct n s0 s1 vl) (hI : I.blk < st.next) :
    Copies (mapT I n s0 s1 vl) st (transpose I n s0 s1 vl st) ∧
    Copies (mapT I n s0 s1 vl) st (transposeTiled t ht I n s0 s1 vl st) ∧
    Copies (mapT I n s0 s1 vl) st (transposeTiledbuf t ht I n s0 s1 vl st) :=
  ⟨(does_transpose h hI).copies, (does_transposeTiled h hI).copies, (does_transposeTiledbuf h hI).copies⟩

/-- transposing twice restores the caller's memory -/
theorem C32_transpose_involutive (I : Ptr) (n : ℕ) (s0 s1 : ℤ) (vl : ℕ) (h : Distinct n s0 s1 vl) (hI : I.blk < st.next) :
    ∀ q : Ptr, q.blk < st.next → (transpose I n s0 s1 vl (transpose I n s0 s1 vl st)).mem q = st.mem q := by
  have h1 := (C32_transpose (st := st) 1 Nat.one_pos I n s0 s1 vl h hI).1
  have h2 := (C32_transpose (st := transpose I n s0 s1 vl st) 1 Nat.one_pos I n s0 s1 vl h (lt_of_lt_of_le hI h1.next)).1
  intro q hq
  by_cases hm : ∃ e ∈ mapT I n s0 s1 vl, q = e.2
  · obtain ⟨_, ⟨i0, i1, v, h0, h1', hv, rfl⟩, rfl⟩ := hm
    rw [h2.copied _ ⟨i0, i1, v, h0, h1', hv, rfl⟩]
    have := h1.copied (I + ((i1 : ℤ) * s0 + (i0 : ℤ) * s1 + (v : ℤ)), I + ((i1 : ℤ) * s1 + (i0 : ℤ) * s0 + (v : ℤ))) ⟨i1, i0, v, h1', h0, hv, rfl⟩
    simp only at this ⊢
    rw [add_comm ((i0 : ℤ) * s0), this, add_comm ((i1 : ℤ) * s0)]
  · push Not at hm
    rw [h2.other q (lt_of_lt_of_le hq h1.next) hm, h1.other q hq hm]

/-! ### tiles -/

/-- C32: `tile2d` visits every cell of the rectangle exactly once, in tiles of at most `t` by `t`, each non-empty if the rectangle is: whatever is
counted per tile, e.g. the visits of cell `(i, j)`, adds up.  (`cnt` is recorded in the memory cell `p`, so that the statement is about the
sequence of calls that `tile2d` really makes.) -/
theorem C32_tile2d_partition (t : ℕ) (ht : 0 < t) (p : Ptr) (i j a b c d : ℕ) (hab : a ≤ b) (hcd : c ≤ d) :
    (tile2d t ht (fun a' b' c' d' s => if a' ≤ i ∧ i < b' ∧ c' ≤ j ∧ j < d' ∧ b' - a' ≤ t ∧ d' - c' ≤ t then s.set p (s.mem p + 1) else s) a b c d st).mem p =
      st.mem p + (if a ≤ i ∧ i < b ∧ c ≤ j ∧ j < d then 1 else 0) := by
  generalize hf : (fun a' b' c' d' (s : State) => if a' ≤ i ∧ i < b' ∧ c' ≤ j ∧ j < d' ∧ b' - a' ≤ t ∧ d' - c' ≤ t then s.set p (s.mem p + 1) else s) = f
  suffices ∀ k a b c d (s : State), (b - a) + (d - c) = k → a ≤ b → c ≤ d →
      (tile2d t ht f a b c d s).mem p = s.mem p + (if a ≤ i ∧ i < b ∧ c ≤ j ∧ j < d then 1 else 0) from this _ a b c d st rfl hab hcd
  intro k
  induction k using Nat.strong_induction_on with
  | _ k ih =>
    intro a b c d s hk hab hcd
    rw [tile2d]
    dsimp only
    split
    · rename_i h
      rw [ih _ _ _ _ _ _ _ rfl (by omega) hcd, ih _ _ _ _ _ _ _ rfl (by omega) hcd, add_assoc]
      · congr 1
        by_cases h1 : c ≤ j ∧ j < d
        · by_cases h2 : i < (b + a) / 2
          · rw [if_neg (show ¬((b + a) / 2 ≤ i ∧ _) by omega), add_zero]
            by_cases h3 : a ≤ i
            · rw [if_pos ⟨h3, h2, h1⟩, if_pos ⟨h3, by omega, h1⟩]
            · rw [if_neg (fun x => h3 x.1), if_neg (fun x => h3 x.1)]
          · rw [if_neg (show ¬(a ≤ i ∧ i < (b + a) / 2 ∧ _) by omega), zero_add]
            by_cases h3 : i < b
            · rw [if_pos ⟨by omega, h3, h1⟩, if_pos ⟨by omega, h3, h1⟩]
            · rw [if_neg (fun x => h3 x.2.1), if_neg (fun x => h3 x.2.1)]
        · rw [if_neg (fun x => h1 x.2.2), if_neg (fun x => h1 x.2.2), if_neg (fun x => h1 x.2.2), add_zero]
      · omega
      · omega
    · split
      · rename_i h
        rw [ih _ _ _ _ _ _ _ rfl hab (by omega), ih _ _ _ _ _ _ _ rfl hab (by omega), add_assoc]
        · congr 1
          by_cases h1 : a ≤ i ∧ i < b
          · by_cases h2 : j < (d + c) / 2
            · rw [if_neg (show ¬(a ≤ i ∧ i < b ∧ (d + c) / 2 ≤ j ∧ _) by omega), add_zero]
              by_cases h3 : c ≤ j
              · rw [if_pos ⟨h1.1, h1.2, h3, h2⟩, if_pos ⟨h1.1, h1.2, h3, by omega⟩]
              · rw [if_neg (fun x => h3 x.2.2.1), if_neg (fun x => h3 x.2.2.1)]
            · rw [if_neg (show ¬(a ≤ i ∧ i < b ∧ c ≤ j ∧ j < (d + c) / 2) by omega), zero_add]
              by_cases h3 : j < d
              · rw [if_pos ⟨h1.1, h1.2, by omega, h3⟩, if_pos ⟨h1.1, h1.2, by omega, h3⟩]
              · rw [if_neg (fun x => h3 x.2.2.2), if_neg (fun x => h3 x.2.2.2)]
          · rw [if_neg (fun x => h1 ⟨x.1, x.2.1⟩), if_neg (fun x => h1 ⟨x.1, x.2.1⟩), if_neg (fun x => h1 ⟨x.1, x.2.1⟩), add_zero]
        · omega
        · omega
      · rename_i h1 h2
        subst hf
        beta_reduce
        by_cases h : a ≤ i ∧ i < b ∧ c ≤ j ∧ j < d
        · rw [if_pos h, if_pos ⟨h.1, h.2.1, h.2.2.1, h.2.2.2, by omega, by omega⟩]; simp
        · rw [if_neg h, if_neg (fun x => h ⟨x.1, x.2.1, x.2.2.1, x.2.2.2.1⟩), add_zero]

/-! ### the buffer is large enough -/

/-- C32: `compute_tilesz(vl, k)` is the largest `t` with `t² · vl · k · sizeof(R) ≤ CACHESIZE` -/
theorem C32_tilesz (szR vl k : ℕ) (h : 0 < szR * vl * k) : ∃ t : ℕ, computeTilesz szR vl k = some (t : ℤ) ∧
    t * t * (szR * vl * k) ≤ CACHESIZE ∧ CACHESIZE < (t + 1) * (t + 1) * (szR * vl * k) := by
  refine ⟨Nat.sqrt (CACHESIZE / (szR * vl * k)), ?_, ?_, ?_⟩
  · refine Primes.isqrt_some ?_
    have : CACHESIZE / (szR * vl * k) ≤ CACHESIZE := Nat.div_le_self _ _
    have h2 : (CACHESIZE : ℤ) = 8192 := rfl
    have h3 : ((CACHESIZE / (szR * vl * k) : ℕ) : ℤ) ≤ CACHESIZE := by exact_mod_cast this
    have : (8192 : ℤ) < INT_MAX := by decide
    omega
  · exact le_trans (Nat.mul_le_mul_right _ (Nat.sqrt_le _)) (Nat.div_mul_le_self _ _)
  · have := Nat.lt_succ_sqrt (CACHESIZE / (szR * vl * k))
    exact (Nat.div_lt_iff_lt_mul h).1 this

theorem tile2d_inv {t : ℕ} {ht : 0 < t} {f : ℕ → ℕ → ℕ → ℕ → State → State} {P : State → Prop}
    (hf : ∀ a b c d s, b - a ≤ t → d - c ≤ t → P s → P (f a b c d s)) (a b c d : ℕ) (s : State) (h : P s) : P (tile2d t ht f a b c d s) := by
  suffices ∀ k a b c d (s : State), (b - a) + (d - c) = k → P s → P (tile2d t ht f a b c d s) from this _ a b c d s rfl h
  intro k
  induction k using Nat.strong_induction_on with
  | _ k ih =>
    intro a b c d s hk hs
    rw [tile2d]
    dsimp only
    split
    · refine ih _ ?_ _ _ _ _ _ rfl (ih _ ?_ _ _ _ _ _ rfl hs) <;> omega
    · split
      · refine ih _ ?_ _ _ _ _ _ rfl (ih _ ?_ _ _ _ _ _ rfl hs) <;> omega
      · exact hf _ _ _ _ _ (by omega) (by omega) hs

theorem transposeRec_inv {t : ℕ} {ht : 0 < t} {f : Ptr → ℕ → ℕ → ℕ → ℕ → State → State} {s0 s1 : ℤ} {P : State → Prop} {k : ℕ}
    (hf : ∀ I a b c d s, I.blk = k → b - a ≤ t → d - c ≤ t → P s → P (f I a b c d s)) (n : ℕ) : ∀ (I : Ptr) (_ : I.blk = k) (s : State), P s → P (transposeRec t ht f s0 s1 I n s) := by
  induction n using Nat.strong_induction_on with
  | _ n ih =>
    intro I hI s hs
    rw [transposeRec]
    split
    · refine ih _ (by omega) (I + _) hI _ (ih _ (by omega) _ hI _ (tile2d_inv (fun a b c d s h1 h2 => hf I a b c d s hI h1 h2) _ _ _ _ _ hs))
    · exact hs

/-- the two copies through a buffer write to the buffer only below `vl·n0·n1` -/
theorem buf_untouched {A B : Ptr} {n0 : ℕ} {s0 : ℤ} {n1 : ℕ} {s1 : ℤ} {vl : ℕ} {s : State} (hAB : A.blk ≠ B.blk) {q : Ptr}
    (hq : q.blk = B.blk → q.off < B.off ∨ B.off + ((vl * n0 * n1 : ℕ) : ℤ) ≤ q.off) (hA : q.blk = B.blk) :
    (cpy2dCi A B n0 s0 vl n1 s1 ((vl * n0 : ℕ) : ℤ) vl s).mem q = s.mem q := by
  have h := does_cpy2dCi (L := 0) (N := A.blk + B.blk + q.blk + 1) (I := A) (O := B) (n0 := n0) (is0 := s0) (os0 := vl) (n1 := n1) (is1 := s1) (os1 := ((vl * n0 : ℕ) : ℤ)) (vl := vl)
    (oop_to_buf hAB) (below_map2d (by omega) (by omega)) s (Nat.zero_le _)
  refine h.other q (by omega) ?_
  rintro _ ⟨i0, i1, v, h0, h1, hv, rfl⟩ e
  subst e
  have e : (B + ((i0 : ℤ) * (vl : ℤ) + (i1 : ℤ) * ((vl * n0 : ℕ) : ℤ) + (v : ℤ))).off = B.off + ((i0 * vl + i1 * (vl * n0) + v : ℕ) : ℤ) := by simp
  have hlt : i0 * vl + i1 * (vl * n0) + v < vl * n0 * n1 := by
    have a1 : i0 * vl + v < vl * n0 := by
      have : (i0 + 1) * vl ≤ n0 * vl := Nat.mul_le_mul_right _ h0
      nlinarith
    have a2 : (i1 + 1) * (vl * n0) ≤ n1 * (vl * n0) := Nat.mul_le_mul_right _ h1
    nlinarith
  have := hq rfl
  simp only [e] at this
  omega

theorem co_untouched {B O : Ptr} {n0 : ℕ} {s0 : ℤ} {n1 : ℕ} {s1 : ℤ} {vl : ℕ} {w0 w1 : ℤ} {s : State} {q : Ptr} (hq : q.blk ≠ O.blk) :
    (cpy2dCo B O n0 w0 s0 n1 w1 s1 vl s).mem q = s.mem q := by
  have key : ∀ (n0 : ℕ) (w0 s0 : ℤ) (n1 : ℕ) (w1 s1 : ℤ), (cpy2d B O n0 w0 s0 n1 w1 s1 vl s).mem q = s.mem q := by
    intro n0 w0 s0 n1 w1 s1
    have inv : ∀ (n : ℕ) (f : ℕ → State → State) (s : State), (∀ i s, (f i s).mem q = s.mem q) → (forN n f s).mem q = s.mem q := by
      intro n f s h
      induction n with
      | zero => rfl
      | succ n ih => simp only [forN]; rw [h, ih]
    have ne : ∀ a : ℤ, q ≠ O + a := fun a e => hq (by rw [e]; rfl)
    unfold cpy2d
    refine inv _ _ _ fun i1 s => inv _ _ _ fun i0 s => ?_
    dsimp only
    split
    · simp only [move1]; rw [State.set_mem_ne _ (ne _)]
    split
    · simp only [move2]; rw [State.set_mem_ne _ (by rw [Ptr.add_add]; exact ne _), State.set_mem_ne _ (ne _)]
    · exact inv _ _ _ fun v s => by simp only [move1]; rw [State.set_mem_ne _ (by rw [Ptr.add_add]; exact ne _)]
  unfold cpy2dCo
  split <;> exact key ..

theorem tile_fits {szR vl t n0 n1 : ℕ} (hs : 0 < szR) (h : t * t * (szR * vl * 2) ≤ CACHESIZE) (h0 : n0 ≤ t) (h1 : n1 ≤ t) : vl * n0 * n1 ≤ CACHESIZE / (2 * szR) := by
  rw [Nat.le_div_iff_mul_le (by omega)]
  calc vl * n0 * n1 * (2 * szR) = n0 * n1 * (szR * vl * 2) := by ring
    _ ≤ t * t * (szR * vl * 2) := Nat.mul_le_mul_right _ (Nat.mul_le_mul h0 h1)
    _ ≤ _ := h

/-- C32: with the tile size the code uses, the buffered tiled copy never writes outside `R buf[CACHESIZE / (2 * sizeof(R))]` -/
theorem C32_cpy2d_tiledbuf_buffer (szR : ℕ) (hs : 0 < szR) (t : ℕ) (ht : 0 < t) (I O : Ptr) (n0 : ℕ) (is0 os0 : ℤ) (n1 : ℕ) (is1 os1 : ℤ) (vl : ℕ)
    (hvl : 0 < vl) (htile : computeTilesz szR vl 2 = some (t : ℤ)) (hI : I.blk < st.next) (hO : O.blk < st.next) :
    ∀ q : Ptr, q.blk = st.next → q.off < 0 ∨ ((CACHESIZE / (2 * szR) : ℕ) : ℤ) ≤ q.off →
      (cpy2dTiledbuf t ht I O n0 is0 os0 n1 is1 os1 vl st).mem q = st.malloc.mem q := by
  obtain ⟨t', h1, h2, _⟩ := C32_tilesz szR vl 2 (by positivity)
  rw [htile] at h1
  obtain rfl : t = t' := by simpa using h1
  intro q hq hoff
  unfold cpy2dTiledbuf
  refine tile2d_inv (P := fun s => s.mem q = st.malloc.mem q) ?_ _ _ _ _ _ rfl
  intro a b c d s hb hd hs'
  unfold cpyTileBuf
  dsimp only
  rw [co_untouched (by rw [hq]; show st.next ≠ O.blk; omega), buf_untouched (by show I.blk ≠ st.next; omega) _ (by rw [hq]; rfl)]
  · exact hs'
  · intro _
    have := tile_fits hs h2 hb hd
    show q.off < 0 ∨ 0 + _ ≤ q.off
    omega

/-- C32: the same for the two buffers of the buffered tiled transpose -/
theorem C32_transpose_tiledbuf_buffer (szR : ℕ) (hs : 0 < szR) (t : ℕ) (ht : 0 < t) (I : Ptr) (n : ℕ) (s0 s1 : ℤ) (vl : ℕ)
    (hvl : 0 < vl) (htile : computeTilesz szR vl 2 = some (t : ℤ)) (hI : I.blk < st.next) :
    ∀ q : Ptr, q.blk = st.next ∨ q.blk = st.next + 1 → q.off < 0 ∨ ((CACHESIZE / (2 * szR) : ℕ) : ℤ) ≤ q.off →
      (transposeTiledbuf t ht I n s0 s1 vl st).mem q = st.malloc.malloc.mem q := by
  obtain ⟨t', h1, h2, _⟩ := C32_tilesz szR vl 2 (by positivity)
  rw [htile] at h1
  obtain rfl : t = t' := by simpa using h1
  intro q hq hoff
  unfold transposeTiledbuf
  refine transposeRec_inv (k := I.blk) (P := fun s => s.mem q = st.malloc.malloc.mem q) ?_ n I rfl _ rfl
  intro J a b c d s hJ hb hd hs'
  have b0 : st.fresh.blk = st.next := rfl
  have b1 : st.malloc.fresh.blk = st.next + 1 := rfl
  have ciO : ∀ (A B : Ptr) (n0 : ℕ) (u0 : ℤ) (n1 : ℕ) (u1 : ℤ) (s : State), A.blk ≠ B.blk → q.blk ≠ B.blk → (cpy2dCi A B n0 u0 vl n1 u1 ((vl * n0 : ℕ) : ℤ) vl s).mem q = s.mem q := by
    intro A B n0 u0 n1 u1 s hAB hqB
    have h := does_cpy2dCi (L := 0) (N := A.blk + B.blk + q.blk + 1) (I := A) (O := B) (n0 := n0) (is0 := u0) (os0 := vl) (n1 := n1) (is1 := u1) (os1 := ((vl * n0 : ℕ) : ℤ)) (vl := vl)
      (oop_to_buf hAB) (below_map2d (by omega) (by omega)) s (Nat.zero_le _)
    refine h.other q (by omega) ?_
    rintro _ ⟨i0, i1, v, h0, h1, hv, rfl⟩ e
    exact hqB (by rw [e]; rfl)
  have fit := tile_fits hs h2 hb hd
  have ci : ∀ (A B : Ptr) (u0 u1 : ℤ) (s : State), A.blk = I.blk → B = st.fresh ∨ B = st.malloc.fresh →
      (cpy2dCi A B (b - a) u0 vl (d - c) u1 ((vl * (b - a) : ℕ) : ℤ) vl s).mem q = s.mem q := by
    intro A B u0 u1 s hA hB
    have hBo : B.off = 0 := by rcases hB with rfl | rfl <;> rfl
    have hBk : B.blk = st.next ∨ B.blk = st.next + 1 := by rcases hB with rfl | rfl <;> simp [b0, b1]
    by_cases hqB : q.blk = B.blk
    · exact buf_untouched (by omega) (fun _ => by rw [hBo]; omega) hqB
    · exact ciO A B _ _ _ _ _ (by omega) hqB
  unfold trTileBuf
  dsimp only
  rw [co_untouched (by show q.blk ≠ J.blk; omega), co_untouched (by show q.blk ≠ J.blk; omega), ci (J + _) _ _ _ _ hJ (Or.inr rfl), ci (J + _) _ _ _ _ hJ (Or.inl rfl)]
  exact hs'

/-! ### the hypotheses can be met -/

/-- a 2 × 3 matrix of pairs copied between two arrays, transposed on the way -/
example : OutOfPlace (map2d ⟨0, 0⟩ ⟨1, 0⟩ 2 6 2 3 2 4 2) ∧ Inj2 2 2 3 4 2 := by
  have h : Inj2 2 2 3 4 2 := by intro i0 i1 v i0' i1' v' h0 h1 hv h0' h1' hv' e; omega
  exact ⟨⟨by rintro _ ⟨i0, i1, v, h0, h1, hv, rfl⟩ _ ⟨i0', i1', v', h0', h1', hv', rfl⟩ e; have := congrArg Ptr.blk e; simp at this, h.func⟩, h⟩
/-- a 5 × 5 matrix of single elements in rows of length 7 -/
example : Distinct 5 7 1 1 := by intro i0 i1 v i0' i1' v' h0 h1 hv h0' h1' hv' e; omega
/-- the tile size for double precision, `vl = 2`, two tiles in cache -/
example : computeTilesz 8 2 2 = some 16 := by
  obtain ⟨t, h, h1, h2⟩ := C32_tilesz 8 2 2 (by norm_num)
  rw [h]
  have a : t < 17 := by by_contra hc; have : 17 * 17 ≤ t * t := Nat.mul_le_mul (by omega) (by omega); simp only [CACHESIZE] at h1; omega
  have b : 15 < t := by by_contra hc; have : (t + 1) * (t + 1) ≤ 16 * 16 := Nat.mul_le_mul (by omega) (by omega); simp only [CACHESIZE] at h2; omega
  have : t = 16 := by omega
  rw [this]; rfl

end FFTW.Copy
