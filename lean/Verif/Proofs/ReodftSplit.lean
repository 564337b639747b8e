import Verif.Proofs.ReodftMath3
import Verif.Proofs.Reodft

/-!
# reodft00e-splitradix is correct
-/

namespace FFTW
open Tensor Spec Finset

/-- memory was `m0`; since then only those `D[k*s]`, `k < n`, with `S k` have changed, and they have their final value `A k` -/
structure Upd (m0 : Ptr → ℝ) (nx : ℕ) (D : Ptr) (s : ℤ) (n : ℕ) (A : ℕ → ℝ) (S : ℕ → Prop) (st : State) : Prop where
  next : st.next = nx
  out : ∀ q, (∀ k < n, S k → q ≠ D + (k : ℤ) * s) → st.mem q = m0 q
  val : ∀ k < n, S k → st.mem (D + (k : ℤ) * s) = A k

namespace Upd
variable {m0 : Ptr → ℝ} {nx : ℕ} {D : Ptr} {s : ℤ} {n : ℕ} {A : ℕ → ℝ} {S : ℕ → Prop} {st : State}

theorem start (st : State) (D : Ptr) (s : ℤ) (n : ℕ) (A : ℕ → ℝ) : Upd st.mem st.next D s n A (fun _ => False) st :=
  ⟨rfl, fun _ _ => rfl, fun _ _ h => h.elim⟩

theorem get (h : Upd m0 nx D s n A S st) {q : Ptr} (hq : q.blk ≠ D.blk) : st.mem q = m0 q :=
  h.out q fun _ _ _ e => hq (by rw [e]; rfl)

theorem get' (h : Upd m0 nx D s n A S st) {q : Ptr} (hq : q.blk ≠ D.blk) (o : ℤ) : st.mem (q + o) = m0 (q + o) :=
  h.get (q := q + o) hq

theorem old (h : Upd m0 nx D s n A S st) (hs : RInj s n) {k : ℕ} (hk : k < n) (hS : ¬ S k) : st.mem (D + (k : ℤ) * s) = m0 (D + (k : ℤ) * s) :=
  h.out _ fun j hj hSj e => hS (by rw [hs k j hk hj ((ptr_add_right_inj D).1 e)]; exact hSj)

theorem congr (h : Upd m0 nx D s n A S st) {S' : ℕ → Prop} (hS : ∀ k < n, S' k ↔ S k) : Upd m0 nx D s n A S' st :=
  ⟨h.next, fun q hq => h.out q fun k hk hs => hq k hk ((hS k hk).2 hs), fun k hk hs => h.val k hk ((hS k hk).1 hs)⟩

theorem set (h : Upd m0 nx D s n A S st) (hs : RInj s n) {k : ℕ} (hk : k < n) {p : Ptr} (hp : p = D + (k : ℤ) * s) {v : ℝ} (hv : v = A k) :
    Upd m0 nx D s n A (fun j => S j ∨ j = k) (st.set p v) := by
  subst hp hv
  refine ⟨h.next, fun q hq => ?_, fun j hj hS => ?_⟩
  · rw [State.set_mem_ne _ (hq k hk (Or.inr rfl)), h.out q fun j hj hS => hq j hj (Or.inl hS)]
  · by_cases e : j = k
    · subst e; rw [State.set_mem_same]
    · rw [State.set_mem_ne _ (fun e' => e (hs j k hj hk ((ptr_add_right_inj D).1 e'))), h.val j hj (hS.resolve_right e)]

theorem loop {S : ℕ → ℕ → Prop} {N : ℕ} {f : ℕ → State → State} (h : Upd m0 nx D s n A (S 0) st)
    (step : ∀ i < N, ∀ st, Upd m0 nx D s n A (S i) st → Upd m0 nx D s n A (S (i + 1)) (f i st)) : Upd m0 nx D s n A (S N) (forN N f st) :=
  forN_inv (P := fun i st => Upd m0 nx D s n A (S i) st) h step

end Upd

namespace Reodft
open RdftS DftS

/-- the transform of every second input, starting with input `c`, in a transform of size `n` -/
def Mid (K : RKind) (n n' c : ℕ) (is os : ℤ) (inpl nd : Bool) (g : Ptr → Ptr → State → State) : Prop :=
  RInj os n → (nd = false → RInj is n) → ∀ (I O : Ptr) (st : State), I.blk < st.next → O.blk < st.next →
    (inpl = true → I = O ∧ ∀ j < n, (j : ℤ) * is = (j : ℤ) * os) → (inpl = false → ∀ j < n, ∀ k < n, I + (j : ℤ) * is ≠ O + (k : ℤ) * os) →
    st.next ≤ (g I O st).next ∧
    (∀ q, q.blk < st.next → (∀ k < n, q ≠ O + (k : ℤ) * os) → (nd = false → ∀ j < n, q ≠ I + (j : ℤ) * is) → (g I O st).mem q = st.mem q) ∧
    ∀ k < n', (g I O st).mem (O + (k : ℤ) * os) = ∑ j ∈ range n', rK K n' j k * st.mem (I + ((2 * j + c : ℕ) : ℤ) * is)

theorem R1_split {K : RKind} {n n' c m : ℕ} {is os : ℤ} {inpl nd : Bool} {pre post cldo mid : Ptr → Ptr → State → State} {A : (ℕ → ℝ) → ℕ → ℝ}
    {Z : (ℕ → ℝ) → (ℕ → ℝ) → ℕ → ℝ} {nd' : Bool}
    (hpre : ∀ (I B : Ptr) (st : State), I.blk ≠ B.blk →
      Fill st.mem st.next B 1 m (A fun j => st.mem (I + (j : ℤ) * is)) (fun _ => True) (pre I B st))
    (hcldo : R1 .R2HC00 m 1 1 true nd' cldo) (hmid : Mid K n n' c is os inpl nd mid) (hc : ∀ j < n', 2 * j + c < n)
    (hpost : RInj os n → ∀ (B O : Ptr) (st : State), B.blk ≠ O.blk →
      (post B O st).next = st.next ∧ (∀ q, (∀ k < n, q ≠ O + (k : ℤ) * os) → (post B O st).mem q = st.mem q) ∧
      ∀ k < n, (post B O st).mem (O + (k : ℤ) * os) = Z (fun k => st.mem (O + (k : ℤ) * os)) (fun i => st.mem (B + (i : ℤ))) k)
    (math : ∀ x e y : ℕ → ℝ, (∀ k < n', e k = ∑ j ∈ range n', rK K n' j k * x (2 * j + c)) →
      (∀ k < m, y k = ∑ j ∈ range m, rK .R2HC00 m j k * A x j) → ∀ k < n, Z e y k = ∑ j ∈ range n, rK K n j k * x j) :
    R1 K n is os inpl nd (fun I O => withBuf fun B st => post B O (mid I O (cldo B B (pre I B st)))) := by
  intro ho hi I O st bI bO hin hout
  set B := st.fresh with hB
  have hBb : B.blk = st.next := rfl
  have f1 := hpre I B st.malloc (by omega)
  set st1 := pre I B st.malloc with hst1
  have n1 : st1.next = st.next + 1 := f1.next
  obtain ⟨c1, c2, c3⟩ := hcldo.inBuf B st1 (by omega)
  set st2 := cldo B B st1 with hst2
  obtain ⟨m1, m2, m3⟩ := hmid ho hi I O st2 (by omega) (by omega) hin hout
  set st3 := mid I O st2 with hst3
  obtain ⟨p1, p2, p3⟩ := hpost ho B O st3 (by omega)
  have old : ∀ q : Ptr, q.blk < st.next → st2.mem q = st.mem q := by
    intro q hq
    rw [c2 q (by omega) ?_, f1.get (by omega)]
    · rfl
    · intro k _ e
      have h2 := congrArg Ptr.blk e
      have : q.blk = B.blk := h2
      omega
  refine ⟨le_of_eq (withBuf_next _ _).symm, ?_, ?_⟩
  · intro q hq hk hj
    rw [withBuf_mem]
    show (post B O st3).mem q = _
    rw [p2 q hk, m2 q (by omega) hk hj, old q hq]
  · intro k hk
    rw [withBuf_mem]
    show (post B O st3).mem _ = _
    rw [p3 k hk]
    refine math (fun j => st.mem (I + (j : ℤ) * is)) _ _ (fun k hk => ?_) (fun k hk => ?_) k hk
    · rw [m3 k hk]
      exact sum_congr rfl fun j _ => by rw [old (I + _) bI]
    · show st3.mem (B + (k : ℤ)) = _
      rw [m2 (B + (k : ℤ)) (show B.blk < _ by omega) ?_ ?_, c3 (fun j => st1.mem (B + (j : ℤ))) (fun _ _ => rfl) k hk]
      · refine sum_congr rfl fun j hj => ?_
        have := f1.val j (mem_range.1 hj) trivial
        rw [mul_one] at this
        beta_reduce
        rw [this]
        rfl
      · intro k' _ e
        have h2 := congrArg Ptr.blk e
        have : B.blk = O.blk := h2
        omega
      · intro _ k' _ e
        have h2 := congrArg Ptr.blk e
        have : B.blk = I.blk := h2
        omega

theorem RInj.mono {s : ℤ} {n m : ℕ} (h : RInj s n) (hm : m ≤ n) : RInj s m := fun k k' hk hk' e => h k k' (by omega) (by omega) e

theorem RInj.double {s : ℤ} {n m : ℕ} (h : RInj s n) (hm : 2 * m ≤ n + 1) : RInj (2 * s) m := by
  intro k k' hk hk' e
  have := h (2 * k) (2 * k') (by omega) (by omega) (by push_cast; linarith)
  omega

/-! ### the pieces -/

variable {m : ℕ} {is os : ℤ} {W : ℕ → ℝ}

theorem splitPreE_fill (hm : 0 < m) (I B : Ptr) (st : State) (hIB : I.blk ≠ B.blk) :
    Fill st.mem st.next B 1 m ((fun (x : ℕ → ℝ) j => x (2 * perm10 m j + 1)) fun j => st.mem (I + (j : ℤ) * is)) (fun _ => True) (splitPreE (2 * m + 1) is I B st) := by
  unfold splitPreE
  set A : ℕ → ℝ := ((fun (x : ℕ → ℝ) j => x (2 * perm10 m j + 1)) fun j => st.mem (I + (j : ℤ) * is)) with hA
  have hAd : ∀ j, A j = st.mem (I + ((2 * perm10 m j + 1 : ℕ) : ℤ) * is) := fun _ => rfl
  have f0 := Fill.start st B 1 m A
  dsimp only
  generalize hst : forN _ _ st = st1
  have f1 : Fill st.mem st.next B 1 m A (fun k => k < (2 * m + 1 + 2) / 4) st1 := by
    rw [← hst]
    refine Fill.loop (S := fun i k => k < i) (f0.mono (by intro k hk h; omega)) ?_
    intro i hi s hs
    rw [hs.get' hIB]
    refine (hs.set (one_RInj _) (k := i) (by omega) (by simp) ?_).mono (by intro k hk h; omega)
    rw [hAd, perm10, if_pos (by omega), show 1 + 4 * i = 2 * (2 * i) + 1 by ring]
  refine (Fill.loop (S := fun t k => k < (2 * m + 1 + 2) / 4 + t) (f1.mono (by intro k hk h; omega)) ?_).mono (by intro k hk h; omega)
  intro t ht s hs
  rw [hs.get' hIB]
  refine (hs.set (one_RInj _) (k := (2 * m + 1 + 2) / 4 + t) (by omega) (by simp) ?_).mono (by intro k hk h; omega)
  rw [hAd, perm10, if_neg (by omega)]
  congr 4
  omega

theorem splitPreO_fill (hm : 0 < m) (I B : Ptr) (st : State) (hIB : I.blk ≠ B.blk) :
    Fill st.mem st.next B 1 m (bO m fun j => st.mem (I + (j : ℤ) * is)) (fun _ => True) (splitPreO (2 * m - 1) is I B st) := by
  unfold splitPreO
  set A : ℕ → ℝ := (bO m fun j => st.mem (I + (j : ℤ) * is)) with hA
  have hAd : ∀ j, A j = if 2 * j < m then st.mem (I + ((2 * perm10 m j : ℕ) : ℤ) * is) else - st.mem (I + ((2 * perm10 m j : ℕ) : ℤ) * is) := fun _ => rfl
  have f0 := Fill.start st B 1 m A
  dsimp only
  generalize hst : forN _ _ st = st1
  have f1 : Fill st.mem st.next B 1 m A (fun k => k < (2 * m - 1 + 3) / 4) st1 := by
    rw [← hst]
    refine Fill.loop (S := fun i k => k < i) (f0.mono (by intro k hk h; omega)) ?_
    intro i hi s hs
    rw [hs.get' hIB]
    refine (hs.set (one_RInj _) (k := i) (by omega) (by simp) ?_).mono (by intro k hk h; omega)
    rw [hAd, if_pos (by omega), perm10, if_pos (by omega), show 4 * i = 2 * (2 * i) by ring]
  refine (Fill.loop (S := fun t k => k < (2 * m - 1 + 3) / 4 + t) (f1.mono (by intro k hk h; omega)) ?_).mono (by intro k hk h; omega)
  intro t ht s hs
  rw [hs.get' hIB]
  refine (hs.set (one_RInj _) (k := (2 * m - 1 + 3) / 4 + t) (by omega) (by simp) ?_).mono (by intro k hk h; omega)
  rw [hAd, if_neg (by omega), perm10, if_neg (by omega)]
  congr 5
  omega

theorem Wsplit_spec {cexp : ℕ → ℤ → ℝ × ℝ} (hc : ExactCexp cexp) {i : ℕ} (h0 : 0 < i) (hi : 2 * i ≤ m) :
    Wsplit cexp (2 * m) (2 * i) = Real.cos (Real.pi * i / (2 * m)) ∧ Wsplit cexp (2 * m) (2 * i + 1) = Real.sin (Real.pi * i / (2 * m)) := by
  obtain ⟨i, rfl⟩ : ∃ t, i = t + 1 := ⟨i - 1, by omega⟩
  have hval : cexp (2 * (2 * m)) (((i * 1 : ℕ) : ℤ) + 1) = (Real.cos (Real.pi * (i + 1 : ℕ) / (2 * m)), Real.sin (Real.pi * (i + 1 : ℕ) / (2 * m))) := by
    rw [hc _ _ (by omega) (by push_cast; omega) (by push_cast; omega)]
    have hn' : (m : ℝ) ≠ 0 := by exact_mod_cast (show m ≠ 0 by omega)
    have e : 2 * Real.pi * ((((i * 1 : ℕ) : ℤ) + 1 : ℤ) : ℝ) / ((2 * (2 * m) : ℕ) : ℝ) = Real.pi * (i + 1 : ℕ) / (2 * m) := by push_cast; field_simp
    rw [e]
  have hm : (2 * m / 4 + 1 - 1) / 1 = 2 * m / 4 := by simp
  constructor
  · unfold Wsplit Twiddle.compute
    dsimp only
    rw [hm, show 2 * (i + 1) - 2 = i * 2 + 0 by omega, getD_flatMap_range _ 2 (fun _ => rfl) _ _ _ _ (by omega) (by omega)]
    show (cexp (2 * (2 * m)) ((((i * 1 : ℕ) : ℤ) + 1) * 1)).1 = _
    rw [mul_one, hval]
  · unfold Wsplit Twiddle.compute
    dsimp only
    rw [hm, show 2 * (i + 1) + 1 - 2 = i * 2 + 1 by omega, getD_flatMap_range _ 2 (fun _ => rfl) _ _ _ _ (by omega) (by omega)]
    show (cexp (2 * (2 * m)) ((((i * 1 : ℕ) : ℤ) + 1) * 1)).2 = _
    rw [mul_one, hval]

theorem trig_compl (hm : 0 < m) {i : ℕ} (hi : i ≤ m) : Real.cos (Real.pi * (m - i : ℕ) / (2 * m)) = Real.sin (Real.pi * i / (2 * m)) ∧
    Real.sin (Real.pi * (m - i : ℕ) / (2 * m)) = Real.cos (Real.pi * i / (2 * m)) := by
  have hm' : (m : ℝ) ≠ 0 := by exact_mod_cast hm.ne'
  have e : Real.pi * (m - i : ℕ) / (2 * m) = Real.pi / 2 - Real.pi * i / (2 * m) := by rw [Nat.cast_sub hi]; field_simp
  rw [e, Real.cos_pi_div_two_sub, Real.sin_pi_div_two_sub]
  exact ⟨rfl, rfl⟩

/-- the values of the odd parts -/
theorem odd_vals (hm : 0 < m) (y : ℕ → ℝ) :
    oddE m y 0 = 2 * y 0 ∧ oddE m y m = 0 ∧ oddO m y m = 2 * y 0 ∧
    (∀ i, 0 < i → 2 * i < m →
      oddE m y i = 2 * (Real.cos (Real.pi * i / (2 * m)) * y i + Real.sin (Real.pi * i / (2 * m)) * y (m - i)) ∧
      oddE m y (m - i) = - (2 * (Real.cos (Real.pi * i / (2 * m)) * y (m - i) - Real.sin (Real.pi * i / (2 * m)) * y i)) ∧
      oddO m y i = 2 * (Real.sin (Real.pi * i / (2 * m)) * y i - Real.cos (Real.pi * i / (2 * m)) * y (m - i)) ∧
      oddO m y (m - i) = 2 * (Real.cos (Real.pi * i / (2 * m)) * y i + Real.sin (Real.pi * i / (2 * m)) * y (m - i))) ∧
    (∀ i, 0 < i → 2 * i = m → oddE m y i = 2 * (Real.cos (Real.pi * i / (2 * m)) * y i) ∧ oddO m y i = 2 * (Real.sin (Real.pi * i / (2 * m)) * y i)) := by
  have hm' : (m : ℝ) ≠ 0 := by exact_mod_cast hm.ne'
  have hmm : Real.pi * m / (2 * m) = Real.pi / 2 := by field_simp
  refine ⟨?_, ?_, ?_, ?_, ?_⟩
  · simp [oddE, hcRe, hcIm]
  · rw [oddE, hmm, Real.cos_pi_div_two, hcIm, if_pos (by omega)]; ring
  · rw [oddO, hmm, Real.cos_pi_div_two, Real.sin_pi_div_two, hcRe, if_neg (by omega), Nat.sub_self]; ring
  · intro i h0 hi
    have r1 : hcRe m y i = y i := by rw [hcRe, if_pos (by omega)]
    have r2 : hcIm m y i = y (m - i) := by rw [hcIm, if_neg (by omega), if_pos (by omega)]
    have r3 : hcRe m y (m - i) = y i := by rw [hcRe, if_neg (by omega), show m - (m - i) = i by omega]
    have r4 : hcIm m y (m - i) = - y (m - i) := by rw [hcIm, if_neg (by omega), if_neg (by omega)]
    obtain ⟨t1, t2⟩ := trig_compl hm (i := i) (by omega)
    refine ⟨?_, ?_, ?_, ?_⟩
    · rw [oddE, r1, r2]
    · rw [oddE, r3, r4, t1, t2]; ring
    · rw [oddO, r1, r2]
    · rw [oddO, r3, r4, t1, t2]; ring
  · intro i h0 hi
    have r1 : hcRe m y i = y i := by rw [hcRe, if_pos (by omega)]
    have r2 : hcIm m y i = 0 := by rw [hcIm, if_pos (by omega)]
    refine ⟨?_, ?_⟩
    · rw [oddE, r1, r2]; ring
    · rw [oddO, r1, r2]; ring

theorem splitPostE_ok (hm : 0 < m) (hW : ∀ i, 0 < i → 2 * i ≤ m → W (2 * i) = Real.cos (Real.pi * i / (2 * m)) ∧ W (2 * i + 1) = Real.sin (Real.pi * i / (2 * m)))
    (ho : RInj os (2 * m + 1)) (B O : Ptr) (st : State) (hIB : B.blk ≠ O.blk) :
    (splitPostE W m os B O st).next = st.next ∧ (∀ q, (∀ k < 2 * m + 1, q ≠ O + (k : ℤ) * os) → (splitPostE W m os B O st).mem q = st.mem q) ∧
      ∀ k < 2 * m + 1, (splitPostE W m os B O st).mem (O + (k : ℤ) * os) = zE m (fun k => st.mem (O + (k : ℤ) * os)) (fun i => st.mem (B + (i : ℤ))) k := by
  set y : ℕ → ℝ := fun i => st.mem (B + (i : ℤ)) with hy
  set e : ℕ → ℝ := fun k => st.mem (O + (k : ℤ) * os) with he
  have hyd : ∀ j : ℕ, st.mem (B + (j : ℤ)) = y j := fun _ => rfl
  have hed : ∀ j : ℕ, st.mem (O + (j : ℤ) * os) = e j := fun _ => rfl
  have y0 : st.mem B = y 0 := by simp [hy, ptr_add_zero]
  have e0 : st.mem O = e 0 := by simp [he, ptr_add_zero]
  obtain ⟨v0, vm, -, vi, vh⟩ := odd_vals hm y
  have zlo : ∀ i ≤ m, zE m e y i = e i + oddE m y i := fun i hi => by rw [zE, if_pos hi]
  have zhi : ∀ i < m, zE m e y (2 * m - i) = e i - oddE m y i := fun i hi => by
    rw [zE, if_neg (by omega), show 2 * m - (2 * m - i) = i by omega]
  suffices h : Upd st.mem st.next O os (2 * m + 1) (zE m e y) (fun k => k ≠ m) (splitPostE W m os B O st) by
    refine ⟨h.next, fun q hq => h.out q fun k hk _ => hq k hk, fun k hk => ?_⟩
    by_cases hkm : k = m
    · subst hkm
      rw [h.old ho hk (by simp), zlo k le_rfl, vm, add_zero]
    · exact h.val k hk hkm
  unfold splitPostE
  dsimp only
  rw [y0, e0]
  have f0 := ((Upd.start st O os (2 * m + 1) (zE m e y)).set ho (k := 0) (by omega) (p := O) (by simp [ptr_add_zero]) (v := e 0 + 2 * y 0)
    (by rw [zlo 0 (by omega), v0])).set ho (k := 2 * m) (by omega) rfl (v := e 0 - 2 * y 0) (by have := zhi 0 hm; rw [Nat.sub_zero] at this; rw [this, v0])
  generalize hst : forN _ _ _ = st1
  have f1 : Upd st.mem st.next O os (2 * m + 1) (zE m e y) (fun k => k < (m - 1) / 2 + 1 ∨ 2 * m - (m - 1) / 2 ≤ k ∨ (k ≠ m ∧ m ≤ k + (m - 1) / 2 ∧ k ≤ m + (m - 1) / 2)) st1 := by
    rw [← hst]
    refine Upd.loop (S := fun i k => k < i + 1 ∨ 2 * m - i ≤ k ∨ (k ≠ m ∧ m ≤ k + i ∧ k ≤ m + i)) (f0.congr (by intro k hk; beta_reduce; (try simp only [false_or, true_iff]); omega)) ?_
    intro i hi s hs
    obtain ⟨w1, w2⟩ := hW (i + 1) (by omega) (by omega)
    obtain ⟨o1, o2, -, -⟩ := vi (i + 1) (by omega) (by omega)
    rw [hs.get' hIB, hs.get' hIB, hyd, hyd, hs.old ho (k := i + 1) (by omega) (by omega), hed, w1, w2]
    have f2 := (hs.set ho (k := i + 1) (by omega) rfl (v := e (i + 1) + 2 * (Real.cos (Real.pi * (i + 1 : ℕ) / (2 * m)) * y (i + 1) + Real.sin (Real.pi * (i + 1 : ℕ) / (2 * m)) * y (m - (i + 1))))
      (by rw [zlo _ (by omega), o1])).set ho (k := 2 * m - (i + 1)) (by omega) rfl (v := e (i + 1) - 2 * (Real.cos (Real.pi * (i + 1 : ℕ) / (2 * m)) * y (i + 1) + Real.sin (Real.pi * (i + 1 : ℕ) / (2 * m)) * y (m - (i + 1))))
      (by rw [zhi _ (by omega), o1])
    rw [f2.old ho (k := m - (i + 1)) (by omega) (by omega), hed]
    refine ((f2.set ho (k := m - (i + 1)) (by omega) rfl ?_).set ho (k := m + (i + 1)) (by omega) rfl ?_).congr (by intro k hk; beta_reduce; (try simp only [false_or, true_iff]); omega)
    · rw [zlo _ (by omega), o2]; ring
    · have := zhi (m - (i + 1)) (by omega)
      rw [show 2 * m - (m - (i + 1)) = m + (i + 1) by omega] at this
      rw [this, o2]; ring
  split_ifs with h
  · obtain ⟨w1, w2⟩ := hW ((m - 1) / 2 + 1) (by omega) (by omega)
    obtain ⟨o1, -⟩ := vh ((m - 1) / 2 + 1) (by omega) (by omega)
    rw [f1.get' hIB, hyd, f1.old ho (k := (m - 1) / 2 + 1) (by omega) (by omega), hed, w1]
    refine ((f1.set ho (k := (m - 1) / 2 + 1) (by omega) rfl ?_).set ho (k := 2 * m - ((m - 1) / 2 + 1)) (by omega) rfl ?_).congr (by intro k hk; beta_reduce; (try simp only [false_or, true_iff]); omega)
    · rw [zlo _ (by omega), o1]
    · rw [zhi _ (by omega), o1]
  · exact f1.congr (by intro k hk; beta_reduce; (try simp only [false_or, true_iff]); omega)

theorem splitPostO_ok (hm : 0 < m) (hW : ∀ i, 0 < i → 2 * i ≤ m → W (2 * i) = Real.cos (Real.pi * i / (2 * m)) ∧ W (2 * i + 1) = Real.sin (Real.pi * i / (2 * m)))
    (ho : RInj os (2 * m - 1)) (B O : Ptr) (st : State) (hIB : B.blk ≠ O.blk) :
    (splitPostO W m os B O st).next = st.next ∧ (∀ q, (∀ k < 2 * m - 1, q ≠ O + (k : ℤ) * os) → (splitPostO W m os B O st).mem q = st.mem q) ∧
      ∀ k < 2 * m - 1, (splitPostO W m os B O st).mem (O + (k : ℤ) * os) = zO m (fun k => st.mem (O + (k : ℤ) * os)) (fun i => st.mem (B + (i : ℤ))) k := by
  set y : ℕ → ℝ := fun i => st.mem (B + (i : ℤ)) with hy
  set e : ℕ → ℝ := fun k => st.mem (O + (k : ℤ) * os) with he
  have hyd : ∀ j : ℕ, st.mem (B + (j : ℤ)) = y j := fun _ => rfl
  have hed : ∀ j : ℕ, st.mem (O + (j : ℤ) * os) = e j := fun _ => rfl
  have y0 : st.mem B = y 0 := by simp [hy, ptr_add_zero]
  obtain ⟨-, -, vm, vi, vh⟩ := odd_vals hm y
  have zlo : ∀ i, 0 < i → i < m → zO m e y (i - 1) = oddO m y i + e (i - 1) := fun i h0 hi => by
    rw [zO, if_pos (by omega), show i - 1 + 1 = i by omega]
  have zhi : ∀ i, 0 < i → i < m → zO m e y (2 * m - 1 - i) = oddO m y i - e (i - 1) := fun i h0 hi => by
    rw [zO, if_neg (by omega), if_neg (by omega), show 2 * m - (2 * m - 1 - i + 1) = i by omega]
  have zm : zO m e y (m - 1) = 2 * y 0 := by rw [zO, if_neg (by omega), if_pos (by omega), vm]
  suffices h : Upd st.mem st.next O os (2 * m - 1) (zO m e y) (fun k => True) (splitPostO W m os B O st) by
    exact ⟨h.next, fun q hq => h.out q fun k hk _ => hq k hk, fun k hk => h.val k hk trivial⟩
  unfold splitPostO
  dsimp only
  rw [y0]
  have f0 := (Upd.start st O os (2 * m - 1) (zO m e y)).set ho (k := m - 1) (by omega) rfl (v := 2 * y 0) zm.symm
  generalize hst : forN _ _ _ = st1
  have f1 : Upd st.mem st.next O os (2 * m - 1) (zO m e y) (fun k => k < (m - 1) / 2 ∨ 2 * m - 1 - (m - 1) / 2 ≤ k ∨ (m - 1 ≤ k + (m - 1) / 2 ∧ k ≤ m - 1 + (m - 1) / 2)) st1 := by
    rw [← hst]
    refine Upd.loop (S := fun i k => k < i ∨ 2 * m - 1 - i ≤ k ∨ (m - 1 ≤ k + i ∧ k ≤ m - 1 + i)) (f0.congr (by intro k hk; beta_reduce; (try simp only [false_or, true_iff]); omega)) ?_
    intro i hi s hs
    obtain ⟨w1, w2⟩ := hW (i + 1) (by omega) (by omega)
    obtain ⟨-, -, o1, o2⟩ := vi (i + 1) (by omega) (by omega)
    rw [hs.get' hIB, hs.get' hIB, hyd, hyd, hs.old ho (k := i + 1 - 1) (by omega) (by omega), hed, w1, w2]
    have f2 := (hs.set ho (k := i + 1 - 1) (by omega) rfl (v := 2 * (Real.sin (Real.pi * (i + 1 : ℕ) / (2 * m)) * y (i + 1) - Real.cos (Real.pi * (i + 1 : ℕ) / (2 * m)) * y (m - (i + 1))) + e (i + 1 - 1))
      (by rw [zlo _ (by omega) (by omega), o1])).set ho (k := 2 * m - 1 - (i + 1)) (by omega) rfl (v := 2 * (Real.sin (Real.pi * (i + 1 : ℕ) / (2 * m)) * y (i + 1) - Real.cos (Real.pi * (i + 1 : ℕ) / (2 * m)) * y (m - (i + 1))) - e (i + 1 - 1))
      (by rw [zhi _ (by omega) (by omega), o1])
    rw [f2.old ho (k := m - 1 - (i + 1)) (by omega) (by omega), hed]
    refine ((f2.set ho (k := m - 1 - (i + 1)) (by omega) rfl ?_).set ho (k := m - 1 + (i + 1)) (by omega) rfl ?_).congr (by intro k hk; beta_reduce; (try simp only [false_or, true_iff]); omega)
    · have := zlo (m - (i + 1)) (by omega) (by omega)
      rw [show m - (i + 1) - 1 = m - 1 - (i + 1) by omega] at this
      rw [this, o2]
    · have := zhi (m - (i + 1)) (by omega) (by omega)
      rw [show 2 * m - 1 - (m - (i + 1)) = m - 1 + (i + 1) by omega, show m - (i + 1) - 1 = m - 1 - (i + 1) by omega] at this
      rw [this, o2]
  split_ifs with h
  · obtain ⟨w1, w2⟩ := hW ((m - 1) / 2 + 1) (by omega) (by omega)
    obtain ⟨-, o1⟩ := vh ((m - 1) / 2 + 1) (by omega) (by omega)
    rw [f1.get' hIB, hyd, f1.old ho (k := (m - 1) / 2 + 1 - 1) (by omega) (by omega), hed, w2]
    refine ((f1.set ho (k := (m - 1) / 2 + 1 - 1) (by omega) rfl ?_).set ho (k := 2 * m - 1 - ((m - 1) / 2 + 1)) (by omega) rfl ?_).congr (by intro k hk; beta_reduce; (try simp only [false_or, true_iff]); omega)
    · rw [zlo _ (by omega) (by omega), o1]
    · rw [zhi _ (by omega) (by omega), o1]
  · exact f1.congr (by intro k hk; beta_reduce; (try simp only [false_or, true_iff]); omega)

end Reodft
end FFTW
