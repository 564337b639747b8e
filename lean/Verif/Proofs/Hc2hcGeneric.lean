import Verif.Proofs.Hc2hcDirect
import Verif.Proofs.HcGenericMath
import Verif.Proofs.DftwGeneric

/-! # rdft/hc2hc-generic.c -/

namespace FFTW
open Tensor Spec

namespace RdftS
open DftS

/-- the table: row `k`, column `l` is `exp(2πi k l/(rm))` -/
theorem hcW_spec {cexp : ℕ → ℤ → ℝ × ℝ} (hc : ExactCexp cexp) {r m k l : ℕ} (hm : m % 2 = 1) (hk : k < r) (hl0 : 0 < l) (hl : 2 * l < m) :
    hcW cexp r m (k * (m - 1) + 2 * (l - 1)) = Real.cos (2 * Real.pi * ((k * l : ℕ) : ℝ) / ((r * m : ℕ) : ℝ)) ∧
    hcW cexp r m (k * (m - 1) + 2 * (l - 1) + 1) = Real.sin (2 * Real.pi * ((k * l : ℕ) : ℝ) / ((r * m : ℕ) : ℝ)) := by
  have hlt : ∀ j < r, ∀ i < (m - 1) / 2, (i + 1) * j < r * m := by
    intro j hj i hi
    calc (i + 1) * j ≤ m * j := Nat.mul_le_mul_right _ (by omega)
      _ < m * r := Nat.mul_lt_mul_of_pos_left hj (by omega)
      _ = r * m := mul_comm _ _
  have e1 : ∀ j : ℕ, ([⟨.half, 0, 0⟩] : List Twiddle.Instr).flatMap (Twiddle.emit cexp (r * m) m ((j * 1 : ℕ) : ℤ)) =
      (List.range ((m - 1) / 2)).flatMap fun i0 => [(cexp (r * m) (((i0 + 1 : ℕ) : ℤ) * (j : ℤ) % ((r * m : ℕ) : ℤ))).1, (cexp (r * m) (((i0 + 1 : ℕ) : ℤ) * (j : ℤ) % ((r * m : ℕ) : ℤ))).2] := by
    intro i
    simp only [List.flatMap_cons, List.flatMap_nil, List.append_nil, Twiddle.emit]
    congr 1
    funext i0
    push_cast
    simp
  have hlen : ∀ i : ℕ, (([⟨.half, 0, 0⟩] : List Twiddle.Instr).flatMap (Twiddle.emit cexp (r * m) m ((i * 1 : ℕ) : ℤ))).length = m - 1 := by
    intro i
    rw [e1, List.length_flatMap]
    simp; omega
  have hval : cexp (r * m) (((l - 1 + 1 : ℕ) : ℤ) * (k : ℤ) % ((r * m : ℕ) : ℤ)) =
      (Real.cos (2 * Real.pi * ((k * l : ℕ) : ℝ) / ((r * m : ℕ) : ℝ)), Real.sin (2 * Real.pi * ((k * l : ℕ) : ℝ) / ((r * m : ℕ) : ℝ))) := by
    have h := hlt k hk (l - 1) (by omega)
    rw [show l - 1 + 1 = l by omega] at h ⊢
    rw [show (l : ℤ) * (k : ℤ) = ((l * k : ℕ) : ℤ) by push_cast; ring, Int.emod_eq_of_lt (by omega) (by exact_mod_cast h), hc (r * m) _ (by omega) (by omega) (by exact_mod_cast h), mul_comm k l]
    norm_cast
  have hmm : (r + 1 - 1) / 1 = r := by simp
  have key : ∀ j, j < 2 → hcW cexp r m (k * (m - 1) + 2 * (l - 1) + j) = [(cexp (r * m) (((l - 1 + 1 : ℕ) : ℤ) * (k : ℤ) % ((r * m : ℕ) : ℤ))).1, (cexp (r * m) (((l - 1 + 1 : ℕ) : ℤ) * (k : ℤ) % ((r * m : ℕ) : ℤ))).2].getD j 0 := by
    intro j hj
    unfold hcW Twiddle.compute
    dsimp only
    rw [hmm, show k * (m - 1) + 2 * (l - 1) + j = k * (m - 1) + ((l - 1) * 2 + j) by ring,
      getD_flatMap_range _ (m - 1) hlen _ _ _ _ hk (by omega), e1,
      getD_flatMap_range (fun i0 => [(cexp (r * m) (((i0 + 1 : ℕ) : ℤ) * (k : ℤ) % ((r * m : ℕ) : ℤ))).1, (cexp (r * m) (((i0 + 1 : ℕ) : ℤ) * (k : ℤ) % ((r * m : ℕ) : ℤ))).2]) 2 (fun _ => rfl) 0 _ (l - 1) j (by omega) hj]
  have k0 := key 0 (by omega)
  have k1 := key 1 (by omega)
  rw [hval] at k0 k1
  exact ⟨k0, k1⟩

/-- part of a complex number -/
def cpart (c : ℕ) (z : ℂ) : ℝ := if c = 0 then z.re else z.im

/-- an operation on columns, for data indexed by vector, part, column, row -/
def onCols (G : ℕ → (ℕ → ℂ) → ℕ → ℂ) (u : ℕ × ℕ × ℕ × ℕ → ℝ) (x : ℕ × ℕ × ℕ × ℕ) : ℝ :=
  cpart x.2.1 (G x.2.2.1 (fun k => ⟨u (x.1, 0, x.2.2.1, k), u (x.1, 1, x.2.2.1, k)⟩) x.2.2.2)

theorem onCols_comp (G H : ℕ → (ℕ → ℂ) → ℕ → ℂ) (u : ℕ × ℕ × ℕ × ℕ → ℝ) : onCols H (onCols G u) = onCols (fun j x => H j (G j x)) u := by
  funext x
  simp only [onCols]
  congr 2

/-- the elements in columns `j0 .. j1-1` and their mirror images -/
structure HSet (t : HcP) (j0 j1 : ℕ) (x : ℕ × ℕ × ℕ × ℕ) : Prop where
  v : x.1 < t.v
  c : x.2.1 < 2
  lo : j0 ≤ x.2.2.1
  hi : x.2.2.1 < j1
  r : x.2.2.2 < t.r

/-- where they are -/
def hAd (t : HcP) (P : Ptr) (x : ℕ × ℕ × ℕ × ℕ) : Ptr := t.at P x.1 (hcIx t.m x.2.1 x.2.2.1 x.2.2.2)

theorem hAd_blk (t : HcP) (P : Ptr) (x : ℕ × ℕ × ℕ × ℕ) : (hAd t P x).blk < P.blk + 1 := by simp [hAd, HcP.at]

theorem hAd_inj {t : HcP} (hn : (offs [(t.r * t.m, t.s), (t.v, t.vs)]).Nodup) {P : Ptr} {j0 j1 : ℕ} (h0 : 0 < j0) (h1 : 2 * j1 ≤ t.m + 1)
    {x y : ℕ × ℕ × ℕ × ℕ} (hx : HSet t j0 j1 x) (hy : HSet t j0 j1 y) (e : hAd t P x = hAd t P y) : x = y := by
  obtain ⟨i, c, j, k⟩ := x
  obtain ⟨i', c', j', k'⟩ := y
  obtain ⟨a1, a2, a3, a4, a5⟩ := hx
  obtain ⟨b1, b2, b3, b4, b5⟩ := hy
  simp only at a1 a2 a3 a4 a5 b1 b2 b3 b4 b5
  replace e : t.at P i (hcIx t.m c j k) = t.at P i' (hcIx t.m c' j' k') := e
  obtain ⟨rfl, e2⟩ := HcP.at_inj hn a1 (hcIx_lt (by omega) (by omega) a5) b1 (hcIx_lt (by omega) (by omega) b5) e
  obtain ⟨rfl, rfl, rfl⟩ := hcIx_inj a2 (by omega) (by omega) b2 (by omega) (by omega) e2
  rfl

theorem hAd_eq0 {t : HcP} {P : Ptr} {i j k : ℕ} : hAd t P (i, 0, j, k) = P + (((k * t.m + j : ℕ) : ℤ) * t.s + (i : ℤ) * t.vs) := by
  simp [hAd, HcP.at, hcIx]

theorem hAd_eq1 {t : HcP} {P : Ptr} {i j k : ℕ} (hj : j ≤ t.m) : hAd t P (i, 1, j, k) = P + ((((k : ℤ) + 1) * (t.m : ℤ) - (j : ℤ)) * t.s + (i : ℤ) * t.vs) := by
  simp only [hAd, HcP.at, hcIx, if_neg (show ¬ (1 : ℕ) = 0 by omega)]
  congr 3
  rw [Nat.cast_add, Nat.cast_sub hj]; push_cast; ring

section
variable {t : HcP} {j0 j1 : ℕ}

/-- bytwiddle -/
theorem Loc_bytw {cexp : ℕ → ℤ → ℝ × ℝ} (hc : ExactCexp cexp) (hn : (offs [(t.r * t.m, t.s), (t.v, t.vs)]).Nodup) (h0 : 0 < j0) (h01 : j0 ≤ j1) (h1 : 2 * j1 ≤ t.m + 1)
    (hm : t.m % 2 = 1) (fwd : Bool) (P : Ptr) :
    Loc (P.blk + 1) (hAd t P) (HSet t j0 j1) (onCols (gTw fwd t.r t.m)) (hcBytwiddle (hcW cexp t.r t.m) t j0 (j1 - j0) (if fwd then -1 else 1) P) := by
  have inner : ∀ i < t.v, ∀ k0 < t.r - 1, ∀ j < j1 - j0, Loc (P.blk + 1) (hAd t P) (fun x => x ∈ [(i, 0, j0 + j, k0 + 1), (i, 1, j0 + j, k0 + 1)])
      (onCols (gTw fwd t.r t.m)) (fun st =>
        let w := (t.m - 1) + 2 * (j0 - 1) + k0 * (2 * (j1 - j0) + 2 * ((t.m - 1) / 2 - (j1 - j0))) + 2 * j
        hcBytw1 (hcW cexp t.r t.m w) ((if fwd then -1 else 1) * hcW cexp t.r t.m (w + 1))
          (P + (i : ℤ) * t.vs + ((j0 : ℤ) * t.s + ((k0 : ℤ) + 1) * ((t.m : ℤ) * t.s)) + (j : ℤ) * t.s)
          (P + (i : ℤ) * t.vs + (- (j0 : ℤ) * t.s + ((k0 : ℤ) + 1 + 1) * ((t.m : ℤ) * t.s)) + (- (j : ℤ) * t.s)) st) := by
    intro i hi k0 hk j hj
    have hA0 : HSet t j0 j1 (i, 0, j0 + j, k0 + 1) := ⟨hi, by simp, by simp, by simp only; omega, by simp only; omega⟩
    have hA1 : HSet t j0 j1 (i, 1, j0 + j, k0 + 1) := ⟨hi, by simp, by simp, by simp only; omega, by simp only; omega⟩
    have hA : ∀ x ∈ [(i, 0, j0 + j, k0 + 1), (i, 1, j0 + j, k0 + 1)], HSet t j0 j1 x := by
      intro x hx
      simp only [List.mem_cons, List.not_mem_nil, or_false] at hx
      rcases hx with rfl | rfl
      · exact hA0
      · exact hA1
    refine Loc.sets _ (fun x hx y hy e => hAd_inj hn h0 h1 (hA x hx) (hA y hy) e) (fun x _ => hAd_blk t P x) ?_ ?_
    · intro u w e x hx
      have e0 := e (i, 0, j0 + j, k0 + 1) (by simp)
      have e1 := e (i, 1, j0 + j, k0 + 1) (by simp)
      simp only [List.mem_cons, List.not_mem_nil, or_false] at hx
      rcases hx with rfl | rfl <;> simp only [onCols, gTw, e0, e1]
    · intro st
      dsimp only
      have ei : (t.m - 1) + 2 * (j0 - 1) + k0 * (2 * (j1 - j0) + 2 * ((t.m - 1) / 2 - (j1 - j0))) + 2 * j = (k0 + 1) * (t.m - 1) + 2 * (j0 + j - 1) := by
        rw [show 2 * (j1 - j0) + 2 * ((t.m - 1) / 2 - (j1 - j0)) = t.m - 1 by omega, Nat.add_mul]; omega
      obtain ⟨w1, w2⟩ := hcW_spec hc (r := t.r) (m := t.m) (k := k0 + 1) (l := j0 + j) hm (by omega) (by omega) (by omega)
      rw [ei, w1, w2]
      have p0 : P + (i : ℤ) * t.vs + ((j0 : ℤ) * t.s + ((k0 : ℤ) + 1) * ((t.m : ℤ) * t.s)) + (j : ℤ) * t.s = hAd t P (i, 0, j0 + j, k0 + 1) := by
        rw [hAd_eq0]; simp only [Ptr.add_add]; congr 1; push_cast; ring
      have p1 : P + (i : ℤ) * t.vs + (- (j0 : ℤ) * t.s + ((k0 : ℤ) + 1 + 1) * ((t.m : ℤ) * t.s)) + (- (j : ℤ) * t.s) = hAd t P (i, 1, j0 + j, k0 + 1) := by
        rw [hAd_eq1 (by omega)]; simp only [Ptr.add_add]; congr 1; push_cast; ring
      rw [p0, p1]
      simp only [List.foldl_cons, List.foldl_nil, hcBytw1]
      congr 1
      · congr 1
        simp only [onCols, cpart, if_true, gTw]
        cases fwd
        · simp only [Bool.false_eq_true, if_false]
          rw [← map_pow, ω_pow_cos]
          simp [-Complex.ofReal_cos, -Complex.ofReal_sin]
          ring
        · simp only [if_true]
          rw [ω_pow_cos]
          simp [-Complex.ofReal_cos, -Complex.ofReal_sin]
          ring
      · simp only [onCols, cpart, if_neg (show ¬ (1 : ℕ) = 0 by omega), gTw]
        cases fwd
        · simp only [Bool.false_eq_true, if_false]
          rw [← map_pow, ω_pow_cos]
          simp [-Complex.ofReal_cos, -Complex.ofReal_sin]
          ring
        · simp only [if_true]
          rw [ω_pow_cos]
          simp [-Complex.ofReal_cos, -Complex.ofReal_sin]
          ring
  have ne : ∀ x y : ℕ × ℕ × ℕ × ℕ, HSet t j0 j1 x → HSet t j0 j1 y → x ≠ y → hAd t P x ≠ hAd t P y := fun x y hx hy hne e => hne (hAd_inj hn h0 h1 hx hy e)
  have mem2 : ∀ {i j k : ℕ} {x : ℕ × ℕ × ℕ × ℕ}, x ∈ [(i, 0, j0 + j, k + 1), (i, 1, j0 + j, k + 1)] ↔ x.1 = i ∧ x.2.1 < 2 ∧ x.2.2.1 = j0 + j ∧ x.2.2.2 = k + 1 := by
    rintro i j k ⟨i', c, j', k'⟩
    simp only [List.mem_cons, List.not_mem_nil, or_false, Prod.mk.injEq]
    omega
  have l1 := fun i (hi : i < t.v) k0 (hk : k0 < t.r - 1) => Loc.loop (inner i hi k0 hk) (by
    intro a ha b hb hab x y hx hy
    rw [mem2] at hx hy
    exact ne x y ⟨by omega, by omega, by omega, by omega, by omega⟩ ⟨by omega, by omega, by omega, by omega, by omega⟩ (by rintro rfl; omega))
  have l2 := fun i (hi : i < t.v) => Loc.loop (l1 i hi) (by
    rintro a ha b hb hab x y ⟨j, hj, hx⟩ ⟨j', hj', hy⟩
    rw [mem2] at hx hy
    exact ne x y ⟨by omega, by omega, by omega, by omega, by omega⟩ ⟨by omega, by omega, by omega, by omega, by omega⟩ (by rintro rfl; omega))
  have l3 := Loc.loop l2 (by
    rintro a ha b hb hab x y ⟨k, hk, j, hj, hx⟩ ⟨k', hk', j', hj', hy⟩
    rw [mem2] at hx hy
    exact ne x y ⟨by omega, by omega, by omega, by omega, by omega⟩ ⟨by omega, by omega, by omega, by omega, by omega⟩ (by rintro rfl; omega))
  refine l3.extend ?_ (fun x _ => hAd_blk t P x) (fun x y hx hy e => hAd_inj hn h0 h1 hx hy e) ?_
  · rintro x ⟨i, hi, k, hk, j, hj, hx⟩
    rw [mem2] at hx
    exact ⟨by omega, by omega, by omega, by omega, by omega⟩
  · rintro u ⟨i, c, j, k⟩ ⟨a1, a2, a3, a4, a5⟩ hne
    simp only at a1 a2 a3 a4 a5
    have : k = 0 := by
      by_contra hk
      exact hne ⟨i, a1, k - 1, by omega, j - j0, by omega, mem2.2 ⟨rfl, a2, by simp only; omega, by simp only; omega⟩⟩
    subst this
    simp only [onCols, gTw, Nat.zero_mul, pow_zero, one_mul, cpart]
    rcases (by omega : c = 0 ∨ c = 1) with rfl | rfl <;> simp

/-- swapri -/
theorem Loc_swapri (hn : (offs [(t.r * t.m, t.s), (t.v, t.vs)]).Nodup) (h0 : 0 < j0) (h1 : 2 * j1 ≤ t.m + 1) (hr : t.r % 2 = 1) (P : Ptr) {i : ℕ} (hi : i < t.v) :
    Loc (P.blk + 1) (hAd t P) (fun x => x.1 = i ∧ HSet t j0 j1 x) (onCols fun _ => gSwap t.r) (swapri t.r t.m t.s j0 j1 (P + (i : ℤ) * t.vs)) := by
  have ne : ∀ x y : ℕ × ℕ × ℕ × ℕ, HSet t j0 j1 x → HSet t j0 j1 y → x ≠ y → hAd t P x ≠ hAd t P y := fun x y hx hy hne e => hne (hAd_inj hn h0 h1 hx hy e)
  have mem2 : ∀ {j k : ℕ} {x : ℕ × ℕ × ℕ × ℕ}, x ∈ [(i, 1, j0 + j, k), (i, 1, j0 + j, t.r - 1 - k)] ↔ x.1 = i ∧ x.2.1 = 1 ∧ x.2.2.1 = j0 + j ∧ (x.2.2.2 = k ∨ x.2.2.2 = t.r - 1 - k) := by
    rintro j k ⟨i', c, j', k'⟩
    simp only [List.mem_cons, List.not_mem_nil, or_false, Prod.mk.injEq]
    omega
  have inner : ∀ k < (t.r + 1) / 2, ∀ j < j1 - j0, Loc (P.blk + 1) (hAd t P) (fun x => x ∈ [(i, 1, j0 + j, k), (i, 1, j0 + j, t.r - 1 - k)])
      (onCols fun _ => gSwap t.r) (fun st =>
        let pr := P + (i : ℤ) * t.vs + (((k : ℤ) + 1) * ((t.m : ℤ) * t.s) - (j0 : ℤ) * t.s : ℤ) + (- (j : ℤ) * t.s)
        let pi := P + (i : ℤ) * t.vs + (((t.r : ℤ) - (k : ℤ)) * ((t.m : ℤ) * t.s) - (j0 : ℤ) * t.s : ℤ) + (- (j : ℤ) * t.s)
        let a := st.mem pr
        let u := st.mem pi
        (st.set pr u).set pi a) := by
    intro k hk j hj
    have hA : ∀ x ∈ [(i, 1, j0 + j, k), (i, 1, j0 + j, t.r - 1 - k)], HSet t j0 j1 x := by
      intro x hx
      rw [mem2] at hx
      exact ⟨by omega, by omega, by omega, by omega, by omega⟩
    refine Loc.sets _ (fun x hx y hy e => hAd_inj hn h0 h1 (hA x hx) (hA y hy) e) (fun x _ => hAd_blk t P x) ?_ ?_
    · intro u w e x hx
      have e0 := e (i, 1, j0 + j, k) (by simp)
      have e1 := e (i, 1, j0 + j, t.r - 1 - k) (by simp)
      simp only [List.mem_cons, List.not_mem_nil, or_false] at hx
      rcases hx with rfl | rfl <;> simp only [onCols, gSwap, e0, e1, cpart, if_neg (show ¬ (1 : ℕ) = 0 by omega)]
      rw [show t.r - 1 - (t.r - 1 - k) = k by omega, e0]
    · intro st
      dsimp only
      have p0 : P + (i : ℤ) * t.vs + (((k : ℤ) + 1) * ((t.m : ℤ) * t.s) - (j0 : ℤ) * t.s : ℤ) + (- (j : ℤ) * t.s) = hAd t P (i, 1, j0 + j, k) := by
        rw [hAd_eq1 (by omega)]; simp only [Ptr.add_add]; congr 1; push_cast; ring
      have p1 : P + (i : ℤ) * t.vs + (((t.r : ℤ) - (k : ℤ)) * ((t.m : ℤ) * t.s) - (j0 : ℤ) * t.s : ℤ) + (- (j : ℤ) * t.s) = hAd t P (i, 1, j0 + j, t.r - 1 - k) := by
        rw [hAd_eq1 (by omega)]; simp only [Ptr.add_add]; congr 1
        rw [Nat.cast_sub (by omega), Nat.cast_sub (by omega)]; push_cast; ring
      rw [p0, p1]
      simp only [List.foldl_cons, List.foldl_nil, onCols, gSwap, cpart, if_neg (show ¬ (1 : ℕ) = 0 by omega), show t.r - 1 - (t.r - 1 - k) = k by omega]
  have l1 := fun k (hk : k < (t.r + 1) / 2) => Loc.loop (inner k hk) (by
    intro a ha b hb hab x y hx hy
    rw [mem2] at hx hy
    exact ne x y ⟨by omega, by omega, by omega, by omega, by omega⟩ ⟨by omega, by omega, by omega, by omega, by omega⟩ (by rintro rfl; omega))
  have l2 := Loc.loop l1 (by
    rintro a ha b hb hab x y ⟨j, hj, hx⟩ ⟨j', hj', hy⟩
    rw [mem2] at hx hy
    exact ne x y ⟨by omega, by omega, by omega, by omega, by omega⟩ ⟨by omega, by omega, by omega, by omega, by omega⟩ (by rintro rfl; omega))
  refine l2.extend ?_ (fun x _ => hAd_blk t P x) (fun x y hx hy e => hAd_inj hn h0 h1 hx.2 hy.2 e) ?_
  · rintro x ⟨k, hk, j, hj, hx⟩
    rw [mem2] at hx
    exact ⟨by omega, by omega, by omega, by omega, by omega, by omega⟩
  · rintro u ⟨i', c, j, k⟩ ⟨a0, a1, a2, a3, a4, a5⟩ hne
    simp only at a0 a1 a2 a3 a4 a5
    have : c = 0 := by
      by_contra hc
      by_cases hk : k < (t.r + 1) / 2
      · exact hne ⟨k, hk, j - j0, by omega, mem2.2 ⟨a0, by simp only; omega, by simp only; omega, Or.inl rfl⟩⟩
      · exact hne ⟨t.r - 1 - k, by omega, j - j0, by omega, mem2.2 ⟨a0, by simp only; omega, by simp only; omega, Or.inr (by simp only; omega)⟩⟩
    subst this
    simp only [onCols, gSwap, cpart, if_true]

/-- the loops of `reorder_dit` and `reorder_dif` -/
theorem Loc_reorder (hn : (offs [(t.r * t.m, t.s), (t.v, t.vs)]).Nodup) (h0 : 0 < j0) (h1 : 2 * j1 ≤ t.m + 1) (hr : t.r % 2 = 1) (P : Ptr) {i : ℕ} (hi : i < t.v) (dit : Bool) :
    Loc (P.blk + 1) (hAd t P) (fun x => x.1 = i ∧ HSet t j0 j1 x) (onCols fun _ => if dit then gDit t.r else gDif t.r)
      (reorderLoop (if dit then reorderDit1 else reorderDif1) t.r t.m t.s j0 j1 (P + (i : ℤ) * t.vs)) := by
  have ne : ∀ x y : ℕ × ℕ × ℕ × ℕ, HSet t j0 j1 x → HSet t j0 j1 y → x ≠ y → hAd t P x ≠ hAd t P y := fun x y hx hy hne e => hne (hAd_inj hn h0 h1 hx hy e)
  have mem4 : ∀ {j k : ℕ} {x : ℕ × ℕ × ℕ × ℕ}, x ∈ [(i, 0, j0 + j, k + 1), (i, 1, j0 + j, t.r - (k + 1)), (i, 0, j0 + j, t.r - (k + 1)), (i, 1, j0 + j, k + 1)] ↔
      x.1 = i ∧ x.2.1 < 2 ∧ x.2.2.1 = j0 + j ∧ (x.2.2.2 = k + 1 ∨ x.2.2.2 = t.r - (k + 1)) := by
    rintro j k ⟨i', c, j', k'⟩
    simp only [List.mem_cons, List.not_mem_nil, or_false, Prod.mk.injEq]
    omega
  have inner : ∀ k < (t.r - 1) / 2, ∀ j < j1 - j0, Loc (P.blk + 1) (hAd t P)
      (fun x => x ∈ [(i, 0, j0 + j, k + 1), (i, 1, j0 + j, t.r - (k + 1)), (i, 0, j0 + j, t.r - (k + 1)), (i, 1, j0 + j, k + 1)])
      (onCols fun _ => if dit then gDit t.r else gDif t.r) (fun st =>
        let j' : ℤ := ((j0 + j : ℕ) : ℤ)
        let k' : ℤ := (k : ℤ) + 1
        let ms : ℤ := (t.m : ℤ) * t.s
        (if dit then reorderDit1 else reorderDif1) (P + (i : ℤ) * t.vs + k' * ms + j' * t.s) (P + (i : ℤ) * t.vs + ((t.r : ℤ) - k') * ms + (ms - j' * t.s))
          (P + (i : ℤ) * t.vs + ((t.r : ℤ) - k') * ms + j' * t.s) (P + (i : ℤ) * t.vs + k' * ms + (ms - j' * t.s)) st) := by
    intro k hk j hj
    have hA : ∀ x ∈ [(i, 0, j0 + j, k + 1), (i, 1, j0 + j, t.r - (k + 1)), (i, 0, j0 + j, t.r - (k + 1)), (i, 1, j0 + j, k + 1)], HSet t j0 j1 x := by
      intro x hx
      rw [mem4] at hx
      exact ⟨by omega, by omega, by omega, by omega, by omega⟩
    have hk0 : t.r - (k + 1) ≠ 0 := by omega
    have hk1 : t.r - (t.r - (k + 1)) = k + 1 := by omega
    refine Loc.sets _ (fun x hx y hy e => hAd_inj hn h0 h1 (hA x hx) (hA y hy) e) (fun x _ => hAd_blk t P x) ?_ ?_
    · intro u w e x hx
      have e0 := e (i, 0, j0 + j, k + 1) (by simp)
      have e1 := e (i, 1, j0 + j, t.r - (k + 1)) (by simp)
      have e2 := e (i, 0, j0 + j, t.r - (k + 1)) (by simp)
      have e3 := e (i, 1, j0 + j, k + 1) (by simp)
      simp only [List.mem_cons, List.not_mem_nil, or_false] at hx
      rcases hx with rfl | rfl | rfl | rfl <;> cases dit <;>
        simp only [onCols, gDit, gDif, e0, e1, e2, e3, if_true, Bool.false_eq_true, if_false, if_neg (show ¬ (k + 1) = 0 by omega), if_neg hk0, hk1]
    · intro st
      dsimp only
      have p0 : P + (i : ℤ) * t.vs + ((k : ℤ) + 1) * ((t.m : ℤ) * t.s) + ((j0 + j : ℕ) : ℤ) * t.s = hAd t P (i, 0, j0 + j, k + 1) := by
        rw [hAd_eq0]; simp only [Ptr.add_add]; congr 1; push_cast; ring
      have p1 : P + (i : ℤ) * t.vs + ((t.r : ℤ) - ((k : ℤ) + 1)) * ((t.m : ℤ) * t.s) + ((t.m : ℤ) * t.s - ((j0 + j : ℕ) : ℤ) * t.s) = hAd t P (i, 1, j0 + j, t.r - (k + 1)) := by
        rw [hAd_eq1 (by omega)]; simp only [Ptr.add_add]; congr 1
        rw [Nat.cast_sub (by omega)]; push_cast; ring
      have p2 : P + (i : ℤ) * t.vs + ((t.r : ℤ) - ((k : ℤ) + 1)) * ((t.m : ℤ) * t.s) + ((j0 + j : ℕ) : ℤ) * t.s = hAd t P (i, 0, j0 + j, t.r - (k + 1)) := by
        rw [hAd_eq0]; simp only [Ptr.add_add]; congr 1
        push_cast [show k + 1 ≤ t.r by omega]; ring
      have p3 : P + (i : ℤ) * t.vs + ((k : ℤ) + 1) * ((t.m : ℤ) * t.s) + ((t.m : ℤ) * t.s - ((j0 + j : ℕ) : ℤ) * t.s) = hAd t P (i, 1, j0 + j, k + 1) := by
        rw [hAd_eq1 (by omega)]; simp only [Ptr.add_add]; congr 1
        push_cast; ring
      rw [p0, p1, p2, p3]
      cases dit
      · simp only [List.foldl_cons, List.foldl_nil, onCols, gDif, cpart, Bool.false_eq_true, if_false, if_true, if_neg (show ¬ (1 : ℕ) = 0 by omega),
          if_neg (show ¬ (k + 1) = 0 by omega), if_neg hk0, hk1, reorderDif1]
      · simp only [List.foldl_cons, List.foldl_nil, onCols, gDit, cpart, if_true, if_neg (show ¬ (1 : ℕ) = 0 by omega),
          if_neg (show ¬ (k + 1) = 0 by omega), if_neg hk0, hk1, reorderDit1]
        congr 2
        ring
  have l1 := fun k (hk : k < (t.r - 1) / 2) => Loc.loop (inner k hk) (by
    intro a ha b hb hab x y hx hy
    rw [mem4] at hx hy
    exact ne x y ⟨by omega, by omega, by omega, by omega, by omega⟩ ⟨by omega, by omega, by omega, by omega, by omega⟩ (by rintro rfl; omega))
  have l2 := Loc.loop l1 (by
    rintro a ha b hb hab x y ⟨j, hj, hx⟩ ⟨j', hj', hy⟩
    rw [mem4] at hx hy
    exact ne x y ⟨by omega, by omega, by omega, by omega, by omega⟩ ⟨by omega, by omega, by omega, by omega, by omega⟩ (by rintro rfl; omega))
  refine l2.extend ?_ (fun x _ => hAd_blk t P x) (fun x y hx hy e => hAd_inj hn h0 h1 hx.2 hy.2 e) ?_
  · rintro x ⟨k, hk, j, hj, hx⟩
    rw [mem4] at hx
    exact ⟨by omega, by omega, by omega, by omega, by omega, by omega⟩
  · rintro u ⟨i', c, j, k⟩ ⟨a0, a1, a2, a3, a4, a5⟩ hne
    simp only at a0 a1 a2 a3 a4 a5
    have : k = 0 := by
      by_contra hc
      by_cases hk : k ≤ (t.r - 1) / 2
      · exact hne ⟨k - 1, by omega, j - j0, by omega, mem4.2 ⟨a0, by simp only; omega, by simp only; omega, Or.inl (by simp only; omega)⟩⟩
      · exact hne ⟨t.r - k - 1, by omega, j - j0, by omega, mem4.2 ⟨a0, by simp only; omega, by simp only; omega, Or.inr (by simp only; omega)⟩⟩
    subst this
    cases dit <;> rcases (by omega : c = 0 ∨ c = 1) with rfl | rfl <;> simp [onCols, gDit, gDif, cpart]

/-- `reorder_dit` and `reorder_dif` -/
theorem Loc_rows (hn : (offs [(t.r * t.m, t.s), (t.v, t.vs)]).Nodup) (h0 : 0 < j0) (h1 : 2 * j1 ≤ t.m + 1) (P : Ptr) {F : (ℕ × ℕ × ℕ × ℕ → ℝ) → ℕ × ℕ × ℕ × ℕ → ℝ}
    {f : ℕ → State → State} (h : ∀ i < t.v, Loc (P.blk + 1) (hAd t P) (fun x => x.1 = i ∧ HSet t j0 j1 x) F (f i)) :
    Loc (P.blk + 1) (hAd t P) (HSet t j0 j1) F (forN t.v f) := by
  refine (Loc.loop h ?_).congr_set fun x => ?_
  · rintro i hi j hj hne x y ⟨rfl, hx⟩ ⟨rfl, hy⟩ e
    exact hne (by rw [hAd_inj hn h0 h1 hx hy e])
  · constructor
    · rintro ⟨i, _, _, hx⟩; exact hx
    · intro hx; exact ⟨x.1, hx.v, rfl, hx⟩

/-- the child that transforms the columns -/
theorem Loc_cld (hn : (offs [(t.r * t.m, t.s), (t.v, t.vs)]).Nodup) (h0 : 0 < j0) (h01 : j0 ≤ j1) (h1 : 2 * j1 ≤ t.m + 1) (P : Ptr) {kind : RKind} {nd : Bool} {g : Ptr → Ptr → State → State}
    {ms : ℤ} (hms : ms = ((t.m : ℤ) - ((j1 : ℤ) - 1) - (j0 : ℤ)) * t.s)
    (h : GOK rK [(⟨t.r, (t.m : ℤ) * t.s, (t.m : ℤ) * t.s⟩, kind)] (some [⟨2, ms, ms⟩, ⟨j1 - j0, t.s, t.s⟩, ⟨t.v, t.vs, t.vs⟩]) 0 0 true nd g) :
    Loc (P.blk + 1) (hAd t P) (HSet t j0 j1) (onCols fun _ => gCld kind t.r) (g (P + (j0 : ℤ) * t.s) (P + (j0 : ℤ) * t.s)) := by
  have had : ∀ c < 2, ∀ l < j1 - j0, ∀ i k : ℕ, hAd t P (i, c, (if c = 0 then j0 + l else j1 - 1 - l), k) =
      P + (j0 : ℤ) * t.s + ((k : ℤ) * ((t.m : ℤ) * t.s) + ((c : ℤ) * ms + (l : ℤ) * t.s + (i : ℤ) * t.vs)) := by
    intro c hc l hl i k
    rcases (by omega : c = 0 ∨ c = 1) with rfl | rfl
    · rw [if_pos rfl, hAd_eq0]; simp only [Ptr.add_add]; congr 1; push_cast; ring
    · rw [if_neg (by omega), hAd_eq1 (by omega)]; simp only [Ptr.add_add]; congr 1
      rw [hms, Nat.cast_sub (by omega), Nat.cast_sub (by omega)]; push_cast; ring
  refine (Loc_gok h (by simp) (κ := ℕ × ℕ × ℕ) (fun y => y.1 < 2 ∧ y.2.1 < j1 - j0 ∧ y.2.2 < t.v) (fun y => (y.1 : ℤ) * ms + (y.2.1 : ℤ) * t.s + (y.2.2 : ℤ) * t.vs) (by simp)
    ?_ ?_ (fun y k => (y.2.2, y.1, (if y.1 = 0 then j0 + y.2.1 else j1 - 1 - y.2.1), k)) ?_ ?_).congr_set ?_
  · intro x
    show x ∈ offs [(2, ms), (j1 - j0, t.s), (t.v, t.vs)] ↔ _
    rw [mem_offs3]
    constructor
    · rintro ⟨c, l, i, hc, hl, hi, rfl⟩
      exact ⟨(c, l, i), ⟨hc, hl, hi⟩, rfl⟩
    · rintro ⟨⟨c, l, i⟩, ⟨hc, hl, hi⟩, rfl⟩
      exact ⟨c, l, i, hc, hl, hi, rfl⟩
  · show (offs [(t.r, (t.m : ℤ) * t.s), (2, ms), (j1 - j0, t.s), (t.v, t.vs)]).Nodup
    rw [Api.offs_boxes]
    refine (Api.nodup_boxes _).map_on ?_
    intro x hx y hy he
    simp only [List.map_cons, List.map_nil, Api.mem_boxes] at hx hy he
    obtain ⟨k, x1, hk, hx1, rfl⟩ := Api.box_cons.1 hx
    obtain ⟨c, x2, hc, hx2, rfl⟩ := Api.box_cons.1 hx1
    obtain ⟨l, x3, hl, hx3, rfl⟩ := Api.box_cons.1 hx2
    obtain ⟨i, x4, hi, hx4, rfl⟩ := Api.box_cons.1 hx3
    obtain ⟨k', y1, hk', hy1, rfl⟩ := Api.box_cons.1 hy
    obtain ⟨c', y2, hc', hy2, rfl⟩ := Api.box_cons.1 hy1
    obtain ⟨l', y3, hl', hy3, rfl⟩ := Api.box_cons.1 hy2
    obtain ⟨i', y4, hi', hy4, rfl⟩ := Api.box_cons.1 hy3
    obtain rfl : x4 = [] := List.length_eq_zero_iff.1 (by rw [Api.box_length hx4]; rfl)
    obtain rfl : y4 = [] := List.length_eq_zero_iff.1 (by rw [Api.box_length hy4]; rfl)
    simp only [Api.dot_cons, Api.dot_nil] at he
    have hs : ∀ {i c l k : ℕ}, i < t.v → c < 2 → l < j1 - j0 → k < t.r → HSet t j0 j1 (i, c, (if c = 0 then j0 + l else j1 - 1 - l), k) := by
      intro i c l k h1 h2 h3 h4
      exact ⟨h1, h2, by simp only; split <;> omega, by simp only; split <;> omega, h4⟩
    have e := hAd_inj (P := P) hn h0 h1 (hs hi hc hl hk) (hs hi' hc' hl' hk') (by
      rw [had c hc l hl, had c' hc' l' hl']
      congr 1
      linarith)
    simp only [Prod.mk.injEq] at e
    obtain ⟨rfl, rfl, e3, rfl⟩ := e
    have : l = l' := by split at e3 <;> omega
    rw [this]
  · rintro ⟨c, l, i⟩ k ⟨hc, hl, hi⟩ hk
    exact had c hc l hl i k
  · rintro u ⟨c, l, i⟩ k ⟨hc, hl, hi⟩ hk
    simp only at hc hl hi
    rcases (by omega : c = 0 ∨ c = 1) with rfl | rfl
    · simp only [onCols, gCld, cpart, if_true]
    · simp only [onCols, gCld, cpart, if_neg (show ¬ (1 : ℕ) = 0 by omega)]
  · rintro ⟨i, c, j, k⟩
    constructor
    · rintro ⟨⟨c', l, i'⟩, ⟨hc, hl, hi⟩, k', hk, e⟩
      simp only [Prod.mk.injEq] at e hc hl hi
      obtain ⟨rfl, rfl, rfl, rfl⟩ := e
      exact ⟨hi, hc, by simp only; split <;> omega, by simp only; split <;> omega, hk⟩
    · rintro ⟨a1, a2, a3, a4, a5⟩
      simp only at a1 a2 a3 a4 a5
      refine ⟨(c, (if c = 0 then j - j0 else j1 - 1 - j), i), ⟨a2, by simp only; split <;> omega, a1⟩, k, a5, ?_⟩
      simp only [Prod.mk.injEq, true_and, and_true]
      split <;> omega

end

variable [CLib]

/-- rdft/hc2hc-generic.c -/
theorem hc2hcGeneric_sound {cexp : ℕ → ℤ → ℝ × ℝ} (hc : ExactCexp cexp) (taste : HcP → Flags → Bool) : HInferior.Sound (hc2hcGeneric cexp taste) := by
  intro fwd t IO fl hr hm hmc hmm
  unfold hc2hcGeneric
  split
  rotate_left
  · intro f hf; simp at hf
  rename_i happ
  obtain ⟨hm1, hr1, _⟩ := happ
  dsimp only
  have hpos : PosK [((⟨t.r, (t.m : ℤ) * t.s, (t.m : ℤ) * t.s⟩ : Dim), hcKind fwd)] := by
    intro e he; simp only [List.mem_singleton] at he; subst he; exact hr
  have hp0 : PosK (if t.mb = 0 then [((⟨t.r, (t.m : ℤ) * t.s, (t.m : ℤ) * t.s⟩ : Dim), hcKind fwd)] else []) := by
    split
    · exact hpos
    · intro e he; simp at he
  apply Mk.Good.need
  · refine kosher_mkproblemRdft hp0 (fun h => absurd rfl h) ?_
    rintro _ _ ⟨e, he, ht⟩ _
    exfalso
    split at he
    · simp only [List.mem_singleton] at he; subst he
      cases fwd <;> simp [hcKind, RKind.reodft] at ht
    · simp at he
  · intro f hf; simp at hf
  intro cld0 hcld0
  rw [modify_default] at hcld0
  obtain ⟨hG0, _⟩ := sound_mkproblemRdft hp0 hcld0
  apply Mk.Good.need
  · refine kosher_mkproblemRdft hpos (fun h => absurd rfl h) ?_
    rintro _ _ ⟨e, he, ht⟩ _
    exfalso
    simp only [List.mem_singleton] at he; subst he
    cases fwd <;> simp [hcKind, RKind.reodft] at ht
  · intro f hf; simp at hf
  intro cld hcld
  rw [modify_default] at hcld
  obtain ⟨hG, _⟩ := sound_mkproblemRdft hpos hcld
  intro f hf
  obtain rfl := Option.some.inj hf
  simp only [decide_true] at hG0 hG
  clear hcld hcld0 hf
  set z := if t.mb = 0 then 1 else 0 with hz
  set j0 := t.mb + z with hj0
  set j1 := t.mb + t.mc with hj1
  have b0 : 0 < j0 := by rw [hj0, hz]; split <;> omega
  have b1 : j0 ≤ j1 := by rw [hj0, hz]; split <;> omega
  have b2 : 2 * j1 ≤ t.m + 1 := by omega
  have b3 : t.mc - z = j1 - j0 := by omega
  rw [b3] at hG ⊢
  intro hn P st hP
  -- column 0
  have l0 : Loc (P.blk + 1) (fun x : ℕ × ℕ => t.at P x.1 (x.2 * t.m)) (fun x => t.mb = 0 ∧ x.1 < t.v ∧ x.2 < t.r)
      (fun u x => ∑ j ∈ Finset.range t.r, rK (hcKind fwd) t.r j x.2 * u (x.1, j)) (cld0.rdftApply P P) := by
    by_cases h0 : t.mb = 0
    · rw [if_pos h0] at hG0
      refine (Loc_gok hG0 (by simp) (κ := ℕ) (fun i => i < t.v) (fun i => (i : ℤ) * t.vs) (by simp) (fun x => mem_offs1) ?_ (fun i k => (i, k)) ?_ ?_).congr_set ?_
      · show (offs [(t.r, (t.m : ℤ) * t.s), (t.v, t.vs)]).Nodup
        have := eo_hc (r := t.r) (m := t.m) (os := t.s) (v := t.v) (ovs := t.vs)
        rw [← this] at hn
        exact offs_cons_nodup hn hm
      · intro i k hi hk
        simp only [HcP.at]; congr 1; push_cast; ring
      · intro u i k hi hk; rfl
      · rintro ⟨i, k⟩
        constructor
        · rintro ⟨i', hi, k', hk, e⟩
          simp only [Prod.mk.injEq] at e
          obtain ⟨rfl, rfl⟩ := e
          exact ⟨h0, hi, hk⟩
        · rintro ⟨_, hi, hk⟩
          exact ⟨i, hi, k, hk, rfl⟩
    · rw [if_neg h0] at hG0
      refine Loc.nop (fun x hx => h0 hx.1) fun st hst => frame_gok0 hG0 (by simp) ?_ (by omega)
      show (offs [(t.v, t.vs)]).Nodup
      exact offs_cons_nodup hn (by positivity)
  have lc := Loc_cld hn b0 b1 b2 P (kind := hcKind fwd) (ms := ((t.m : ℤ) - ((t.mb : ℤ) + (t.mc : ℤ) - 1) - (j0 : ℤ)) * t.s) (by rw [hj1]; push_cast; ring) hG
  have hd : ∀ (x : ℕ × ℕ × ℕ × ℕ) (y : ℕ × ℕ), HSet t j0 j1 x → (t.mb = 0 ∧ y.1 < t.v ∧ y.2 < t.r) → hAd t P x ≠ t.at P y.1 (y.2 * t.m) := by
    rintro ⟨i, c, j, k⟩ ⟨i', k'⟩ ⟨a1, a2, a3, a4, a5⟩ ⟨_, h2, h3⟩ e
    simp only at a1 a2 a3 a4 a5 h2 h3
    have e2 := (HcP.at_inj hn a1 (hcIx_lt (c := c) (j := j) (by omega) (by omega) a5) h2 ((hcCol_iff (by omega)).2 ⟨k', h3, 0, hm, rfl⟩) e).2
    have e3 := congrArg (hcCol t.m) e2
    rw [hcIx_col k (by omega) (by omega), hcCol_at k' hm] at e3
    omega
  -- the whole
  have key : ∃ (f1 f2 : State → State) (F1 F2 : (ℕ × ℕ × ℕ × ℕ → ℝ) → ℕ × ℕ × ℕ × ℕ → ℝ), Loc (P.blk + 1) (hAd t P) (HSet t j0 j1) F1 f1 ∧ Loc (P.blk + 1) (hAd t P) (HSet t j0 j1) F2 f2 ∧
      (∀ u x, HSet t j0 j1 x → F2 (F1 u) x = onCols (hcColumn fwd t.r t.m) u x) ∧
      ∀ st, (if fwd = true then fun IO st =>
            reorderDit t j0 (j1 - j0) IO (cld.rdftApply (IO + (j0 : ℤ) * t.s) (IO + (j0 : ℤ) * t.s) (cld0.rdftApply IO IO (hcBytwiddle (hcW cexp t.r t.m) t j0 (j1 - j0) (-1) IO st)))
          else fun IO st =>
            hcBytwiddle (hcW cexp t.r t.m) t j0 (j1 - j0) 1 IO (cld.rdftApply (IO + (j0 : ℤ) * t.s) (IO + (j0 : ℤ) * t.s) (cld0.rdftApply IO IO (reorderDif t j0 (j1 - j0) IO st)))) P st =
        f2 (cld0.rdftApply P P (f1 st)) := by
    cases fwd
    · have lb := Loc_bytw hc hn b0 b1 b2 hm1 false P
      have lr := Loc_rows hn b0 b2 P (f := fun i st => reorderLoop reorderDif1 t.r t.m t.s j0 j1 (P + (i : ℤ) * t.vs) (swapri t.r t.m t.s j0 j1 (P + (i : ℤ) * t.vs) st))
        fun i hi => (Loc_swapri hn b0 b2 hr1 P hi).comp (Loc_reorder hn b0 b2 hr1 P hi false)
      refine ⟨_, _, _, _, lr, lc.comp lb, ?_, ?_⟩
      · intro u x hx
        simp only [onCols_comp]
        simp only [onCols]
        congr 1
        exact hcColumn_dif t.r t.m x.2.2.1 hr1 (by omega) _ _
      · intro st
        simp only [Bool.false_eq_true, if_false, reorderDif, show j0 + (j1 - j0) = j1 by omega]
    · have lb := Loc_bytw hc hn b0 b1 b2 hm1 true P
      have lr := Loc_rows hn b0 b2 P (f := fun i st => swapri t.r t.m t.s j0 j1 (P + (i : ℤ) * t.vs) (reorderLoop reorderDit1 t.r t.m t.s j0 j1 (P + (i : ℤ) * t.vs) st))
        fun i hi => (Loc_reorder hn b0 b2 hr1 P hi true).comp (Loc_swapri hn b0 b2 hr1 P hi)
      refine ⟨_, _, _, _, lb, lc.comp lr, ?_, ?_⟩
      · intro u x hx
        simp only [onCols_comp]
        simp only [onCols]
        congr 1
        exact hcColumn_dit t.r t.m x.2.2.1 hr1 (by omega) _ hx.r
      · intro st
        simp only [if_true, reorderDit, show j0 + (j1 - j0) = j1 by omega]
  obtain ⟨f1, f2, F1, F2, k1, k2, k3, k4⟩ := key
  obtain ⟨r1, r2, r3⟩ := Loc.around k1 l0 k2 hd st hP
  have hrun := k4 st
  rw [show (_ : State) = f2 (cld0.rdftApply P P (f1 st)) from hrun]
  refine ⟨r1.mono ?_, ?_⟩
  · rintro q _ (⟨⟨i, c, j, k⟩, ⟨a1, a2, a3, a4, a5⟩, rfl⟩ | ⟨⟨i, k⟩, ⟨h0, hi, hk⟩, rfl⟩)
    · simp only at a1 a2 a3 a4 a5
      refine ⟨i, a1, hcIx t.m c j k, hcIx_lt (by omega) (by omega) a5, ?_, ?_, rfl⟩
      · rw [hcIx_col k (by omega) (by omega)]; omega
      · rw [hcIx_col k (by omega) (by omega)]; omega
    · refine ⟨i, hi, _, (hcCol_iff (by omega)).2 ⟨k, hk, 0, hm, rfl⟩, ?_, ?_, rfl⟩
      · rw [hcCol_at k hm]; omega
      · rw [hcCol_at k hm]; omega
  · intro i hi p hp ha hb
    by_cases h0 : hcCol t.m p = 0
    · obtain ⟨k, hk, l, hl, rfl⟩ := (hcCol_iff (by omega)).1 hp
      rw [hcCol_at k hl] at h0
      obtain rfl : l = 0 := by omega
      have := r3 (i, k) ⟨by rw [hcCol_at k hl] at ha; omega, hi, hk⟩
      simp only [add_zero] at this ⊢
      rw [this, hcStep_zero fwd (by omega) (by omega) _ hk]
      rfl
    · obtain ⟨c, hc, k, hk, e⟩ := hcIx_exists (by omega) hp (by omega) (by omega)
      generalize hcCol t.m p = j at *
      subst e
      have hx : HSet t j0 j1 (i, c, j, k) := ⟨hi, hc, by rw [hj0, hz]; simp only; split <;> omega, by simp only; omega, hk⟩
      have h4 := r2 (i, c, j, k) hx
      rw [k3 _ _ hx] at h4
      have h5 := hcStep_col fwd (show t.r ≠ 0 by omega) (show 0 < j by omega) (show 2 * j < t.m by omega) (fun p => st.mem (t.at P i p)) hk
      rw [show t.at P i (hcIx t.m c j k) = hAd t P (i, c, j, k) from rfl, h4]
      simp only [onCols, hAd, hcIx, if_true, if_neg (show ¬ (1 : ℕ) = 0 by omega)]
      rw [← h5]
      rcases (by omega : c = 0 ∨ c = 1) with rfl | rfl <;> simp [cpart]

end RdftS
end FFTW
