import Verif.Model.Bluestein
import Verif.Proofs.Rader

namespace FFTW.DftS
open Tensor Spec Finset

/-! ### the sequence -/

theorem redKsq_spec {n2 : ℕ} (h2 : 0 < n2) : ∀ ksq : ℕ, redKsq ksq n2 ≤ n2 ∧ redKsq ksq n2 % n2 = ksq % n2 := by
  intro ksq
  induction ksq using Nat.strongRecOn with
  | _ ksq ih =>
    rw [redKsq]
    split
    · rename_i h
      obtain ⟨a, b⟩ := ih (ksq - n2) (by omega)
      refine ⟨a, ?_⟩
      rw [b]
      conv_rhs => rw [show ksq = ksq - n2 + n2 by omega, Nat.add_mod_right]
    · rename_i h
      exact ⟨by omega, rfl⟩

theorem blueSeq_aux (cexp : ℕ → ℤ → ℝ × ℝ) {n : ℕ} (hn : 0 < n) (c : ℕ) :
    let s := iter c (fun k (s : ℕ × (ℕ → ℝ × ℝ)) =>
      (redKsq (s.1 + (2 * k + 1)) (2 * n), Function.update s.2 k (cexp (2 * n) (s.1 : ℤ)))) (0, fun _ => (0, 0))
    ((c = 0 → s.1 = 0) ∧ s.1 ≤ 2 * n ∧ s.1 % (2 * n) = c * c % (2 * n)) ∧
      ∀ k < c, ∃ q : ℕ, (k = 0 → q = 0) ∧ q ≤ 2 * n ∧ q % (2 * n) = k * k % (2 * n) ∧ s.2 k = cexp (2 * n) (q : ℤ) := by
  induction c with
  | zero => simp [iter]
  | succ c ih =>
    obtain ⟨⟨h0, h1, h2⟩, h3⟩ := ih
    dsimp only [iter] at h0 h1 h2 h3 ⊢
    obtain ⟨a, b⟩ := redKsq_spec (show 0 < 2 * n by omega) ((iter c (fun k (s : ℕ × (ℕ → ℝ × ℝ)) =>
      (redKsq (s.1 + (2 * k + 1)) (2 * n), Function.update s.2 k (cexp (2 * n) (s.1 : ℤ)))) (0, fun _ => (0, 0))).1 + (2 * c + 1))
    refine ⟨⟨by omega, a, ?_⟩, ?_⟩
    · rw [b, Nat.add_mod, h2, ← Nat.add_mod]; congr 1; ring
    · intro k hk
      by_cases e : k = c
      · subst e
        exact ⟨_, h0, h1, h2, by simp⟩
      · obtain ⟨q, q0, q1, q2, q3⟩ := h3 k (by omega)
        exact ⟨q, q0, q1, q2, by rw [Function.update_of_ne e]; exact q3⟩

/-- the sequence is `exp(iπk²/n)` -/
theorem blueSeq_ok {cexp : ℕ → ℤ → ℝ × ℝ} (hc : ExactCexp cexp) {n : ℕ} (hp : n.Prime) {k : ℕ} (hk : k < n) :
    (⟨(blueSeq cexp n k).1, (blueSeq cexp n k).2⟩ : ℂ) = (starRingEnd ℂ) (ω (2 * n) ^ (k * k)) := by
  have hn := hp.pos
  obtain ⟨-, h⟩ := blueSeq_aux cexp hn n
  obtain ⟨q, q0, q1, q2, q3⟩ := h k hk
  have hq : q < 2 * n := by
    rcases Nat.lt_or_ge q (2 * n) with h | h
    · exact h
    obtain rfl : q = 2 * n := by omega
    -- the sequence never reaches n2
    rw [Nat.mod_self] at q2
    have hd : 2 * n ∣ k * k := Nat.dvd_of_mod_eq_zero q2.symm
    have hd' : n ∣ k * k := (Dvd.intro_left 2 rfl).trans hd
    have hnk : n ∣ k := by rcases hp.dvd_mul.1 hd' with h | h <;> exact h
    obtain rfl : k = 0 := Nat.eq_zero_of_dvd_of_lt hnk hk
    have := q0 rfl
    omega
  have e : blueSeq cexp n k = cexp (2 * n) (q : ℤ) := q3
  rw [e, hc _ _ (by omega) (by omega) (by exact_mod_cast hq), ← ω_pow_mod (2 * n) (k * k) (by omega), ← q2, ω_pow_mod _ _ (by omega), ω_pow_cos]
  apply Complex.ext <;> simp [-Complex.ofReal_cos, -Complex.ofReal_sin]


/-! ### the algebra -/

/-- `jk = (j² + k² - (j-k)²)/2` -/
theorem chirp (n j k : ℕ) (hn : n ≠ 0) : ω (2 * n) ^ (j * j) * ω (2 * n) ^ (k * k) * (starRingEnd ℂ) (ω (2 * n) ^ ((k - j + (j - k)) * (k - j + (j - k)))) = ω n ^ (j * k) := by
  rw [ω_conj, Genfft.ω_cis, Genfft.ω_cis, Genfft.ω_cis, ← Genfft.cis_add, ← Genfft.cis_add, ← Genfft.cis_scale (r := 2) (by norm_num) n]
  congr 1
  rcases Nat.le_total j k with h | h
  · obtain ⟨a, rfl⟩ := Nat.exists_eq_add_of_le h
    rw [show j + a - j + (j - (j + a)) = a by omega]
    push_cast; ring
  · obtain ⟨a, rfl⟩ := Nat.exists_eq_add_of_le h
    rw [show k - (k + a) + (k + a - k) = a by omega]
    push_cast; ring

/-- the padded chirp -/
noncomputable def chirpPad (n nb : ℕ) (i : ℕ) : ℂ :=
  if i < n then (starRingEnd ℂ) (ω (2 * n) ^ (i * i)) else if nb - i < n then (starRingEnd ℂ) (ω (2 * n) ^ ((nb - i) * (nb - i))) else 0

theorem blue_math {n nb : ℕ} (hn : n ≠ 0) (hnb : 2 * n - 1 ≤ nb) (x : ℕ → ℂ) {k : ℕ} (hk : k < n) :
    ω (2 * n) ^ (k * k) * ∑ q ∈ range nb, (starRingEnd ℂ) (ω nb ^ (q * k)) *
      ((∑ i ∈ range nb, ω nb ^ (i * q) * (chirpPad n nb i / nb)) * ∑ j ∈ range nb, ω nb ^ (j * q) * (if j < n then x j * ω (2 * n) ^ (j * j) else 0)) =
      ∑ j ∈ range n, ω n ^ (j * k) * x j := by
  rw [conv_ω (by omega) (chirpPad n nb) _ (show k < nb by omega)]
  obtain ⟨r, hr⟩ : ∃ r, nb = n + r := ⟨nb - n, by omega⟩
  have hz : ∀ f : ℕ → ℂ, (∀ j, n ≤ j → f j = 0) → ∑ j ∈ range nb, f j = ∑ j ∈ range n, f j := by
    intro f hf
    rw [hr, sum_range_add, sum_eq_zero (s := range r) (fun i _ => hf _ (by omega)), add_zero]
  rw [hz _ (fun j hj => by rw [if_neg (by omega), zero_mul]), mul_sum]
  refine sum_congr rfl fun j hj => ?_
  rw [mem_range] at hj
  rw [if_pos hj, ← chirp n j k hn]
  have : chirpPad n nb ((k + nb - j) % nb) = (starRingEnd ℂ) (ω (2 * n) ^ ((k - j + (j - k)) * (k - j + (j - k)))) := by
    unfold chirpPad
    rcases Nat.lt_or_ge k j with h | h
    · rw [Nat.mod_eq_of_lt (by omega), if_neg (by omega), if_pos (by omega)]
      congr 2; congr 1 <;> omega
    · rw [show k + nb - j = k - j + nb by omega, Nat.add_mod_right, Nat.mod_eq_of_lt (by omega), if_pos (by omega)]
      congr 2; congr 1 <;> omega
  rw [this]
  ring


/-! ### the tables -/

theorem set_comm (st : State) {p q : Ptr} (h : p ≠ q) (a b : ℝ) : (st.set p a).set q b = (st.set q b).set p a := by
  simp only [State.set]
  rw [Function.update_comm h]

theorem put_eq1 (B : Ptr) (o : ℤ) (a b : ℝ) (st : State) : (st.set (B + o) a).set (B + (o + 1)) b = put B 1 o ⟨a, b⟩ st := by
  rw [put, add_comm o 1]

theorem put_eq1' (B : Ptr) (o : ℤ) (a b : ℝ) (st : State) : (st.set (B + (o + 1)) b).set (B + o) a = put B 1 o ⟨a, b⟩ st := by
  rw [set_comm _ (by rw [Ne, ptr_add_right_inj]; omega), put_eq1]

theorem blueW_ok {n nb : ℕ} (hn : 0 < n) (hnb : 2 * n - 1 ≤ nb) {w : ℕ → ℝ × ℝ}
    (hw : ∀ k < n, (⟨(w k).1, (w k).2⟩ : ℂ) = (starRingEnd ℂ) (ω (2 * n) ^ (k * k))) {cld : Plan} {nd : Bool}
    (hG : GOK dftK [((⟨nb, 2, 2⟩ : Dim), ())] (some [⟨1, 0, 0⟩]) 1 1 true nd (fun I O => cld.dftApply I (I + (1 : ℤ)) O (O + (1 : ℤ)))) {q : ℕ} (hq : q < nb) :
    (⟨blueW w n nb cld (2 * q), blueW w n nb cld (2 * q + 1)⟩ : ℂ) = ∑ i ∈ range nb, ω nb ^ (i * q) * (chirpPad n nb i / nb) := by
  set B : Ptr := ⟨0, 0⟩ with hB
  set st0 : State := { mem := fun _ => 0, next := 1 } with hst0
  have hdiv : ∀ k < n, (⟨(w k).1 / (nb : ℝ), (w k).2 / (nb : ℝ)⟩ : ℂ) = (starRingEnd ℂ) (ω (2 * n) ^ (k * k)) / nb := by
    intro k hk
    rw [← hw k hk]
    have : (nb : ℂ) = ((nb : ℝ) : ℂ) := by push_cast; rfl
    rw [this]
    apply Complex.ext
    · rw [Complex.div_ofReal_re]
    · rw [Complex.div_ofReal_im]
  obtain ⟨st1, hst1⟩ : ∃ st1, st1 = forN nb (fun i st => (st.set (B + (2 * (i : ℤ) + 1)) 0).set (B + (2 * (i : ℤ))) 0) st0 := ⟨_, rfl⟩
  have h1 : st1.next = 1 ∧ ∀ i < nb, (val st1.mem B 1 ((i : ℤ) * 2) : ℂ) = 0 := by
    have e : st1 = (List.range nb).foldl (fun st (i : ℕ) => put B 1 ((i : ℤ) * 2) 0 st) st0 := by
      rw [hst1, forN_foldl]
      congr 1
      funext st i
      rw [put_eq1', mul_comm]
      rfl
    obtain ⟨p1, p2, p3⟩ := puts_spec (B := B) (δ := 1) (o := fun i : ℕ => (i : ℤ) * 2) (F := fun i _ => (0 : ℂ)) (W := fun _ => True)
      (List.range nb) (by simp) (by simp) (by intro x _ y _ c c' hc hc' e; omega) List.nodup_range st0
    rw [← e] at p1 p3
    exact ⟨p1, fun i hi => p3 i (List.mem_range.2 hi)⟩
  obtain ⟨st2, hst2⟩ : ∃ st2, st2 = put B 1 (((0 : ℕ) : ℤ) * 2) ((starRingEnd ℂ) (ω (2 * n) ^ (0 * 0)) / nb) st1 := ⟨_, rfl⟩
  have e2 : (st1.set B ((w 0).1 / (nb : ℝ))).set (B + (1 : ℤ)) ((w 0).2 / (nb : ℝ)) = st2 := by
    have := put_eq1 B 0 ((w 0).1 / (nb : ℝ)) ((w 0).2 / (nb : ℝ)) st1
    rw [Ptr.add_zero, zero_add] at this
    rw [this, hst2, hdiv 0 hn]
    simp
  have h2 : st2.next = 1 ∧ ∀ i < nb, (val st2.mem B 1 ((i : ℤ) * 2) : ℂ) = if i = 0 then (starRingEnd ℂ) (ω (2 * n) ^ (0 * 0)) / nb else 0 := by
    refine ⟨by rw [hst2, put_next, h1.1], fun i hi => ?_⟩
    rw [hst2, put_val (bufPInj nb) (by omega) hi, h1.2 i hi]
  have h3 : ∀ m, m ≤ n - 1 → ∃ st3, st3 = forN m (fun i0 st =>
      let i : ℤ := (i0 : ℤ) + 1
      let st := (st.set (B + (2 * ((nb : ℤ) - i))) ((w (i0 + 1)).1 / (nb : ℝ))).set (B + (2 * i)) ((w (i0 + 1)).1 / (nb : ℝ))
      (st.set (B + (2 * ((nb : ℤ) - i) + 1)) ((w (i0 + 1)).2 / (nb : ℝ))).set (B + (2 * i + 1)) ((w (i0 + 1)).2 / (nb : ℝ))) st2 ∧
      st3.next = 1 ∧ ∀ i < nb, (val st3.mem B 1 ((i : ℤ) * 2) : ℂ) = if i ≤ m then (starRingEnd ℂ) (ω (2 * n) ^ (i * i)) / nb else
        if nb - i ≤ m then (starRingEnd ℂ) (ω (2 * n) ^ ((nb - i) * (nb - i))) / nb else 0 := by
    intro m
    induction m with
    | zero =>
      intro _
      refine ⟨_, rfl, h2.1, fun i hi => ?_⟩
      rw [forN, h2.2 i hi]
      by_cases e : i = 0
      · subst e; simp
      · rw [if_neg e, if_neg (by omega), if_neg (by omega)]
    | succ m ih =>
      intro hm
      obtain ⟨st3, e3, n3, v3⟩ := ih (by omega)
      refine ⟨_, rfl, ?_⟩
      rw [forN_succ, ← e3]
      clear h2 hst2 e2 e3 hst1 h1
      dsimp only
      have hm1 : m + 1 < nb := by omega
      have hm2 : nb - (m + 1) < nb := by omega
      set z : ℂ := (starRingEnd ℂ) (ω (2 * n) ^ ((m + 1) * (m + 1))) / nb with hz
      have hzz := hdiv (m + 1) (by omega)
      have e : (((st3.set (B + (2 * ((nb : ℤ) - ((m : ℤ) + 1)))) ((w (m + 1)).1 / (nb : ℝ))).set (B + (2 * ((m : ℤ) + 1))) ((w (m + 1)).1 / (nb : ℝ))).set (B + (2 * ((nb : ℤ) - ((m : ℤ) + 1)) + 1)) ((w (m + 1)).2 / (nb : ℝ))).set (B + (2 * ((m : ℤ) + 1) + 1)) ((w (m + 1)).2 / (nb : ℝ)) =
          put B 1 (((m + 1 : ℕ) : ℤ) * 2) z (put B 1 (((nb - (m + 1) : ℕ) : ℤ) * 2) z st3) := by
        rw [set_comm (p := B + (2 * ((m : ℤ) + 1))) _ (by rw [Ne, ptr_add_right_inj]; omega), put_eq1, put_eq1, hzz, Nat.cast_sub (by omega)]
        push_cast
        rw [mul_comm (2 : ℤ), mul_comm (2 : ℤ)]
      rw [e]
      refine ⟨n3, fun i hi => ?_⟩
      rw [put_val (bufPInj nb) hm1 hi, put_val (bufPInj nb) hm2 hi, v3 i hi]
      by_cases c1 : i = m + 1
      · subst c1; rw [if_pos rfl, if_pos (le_refl _)]
      rw [if_neg c1]
      by_cases c2 : i = nb - (m + 1)
      · rw [if_pos c2, if_neg (show ¬ i ≤ m + 1 by omega), if_pos (show nb - i ≤ m + 1 by omega), show nb - i = m + 1 by omega]
      rw [if_neg c2]
      by_cases c3 : i ≤ m
      · rw [if_pos c3, if_pos (show i ≤ m + 1 by omega)]
      · rw [if_neg c3, if_neg (show ¬ i ≤ m + 1 by omega)]
        by_cases c4 : nb - i ≤ m
        · rw [if_pos c4, if_pos (show nb - i ≤ m + 1 by omega)]
        · rw [if_neg c4, if_neg (show ¬ nb - i ≤ m + 1 by omega)]
  obtain ⟨st3, e3, n3, v3⟩ := h3 (n - 1) (le_refl _)
  obtain ⟨-, -, v⟩ := hG.rank1 (bufPInj _) (fun _ => bufPInj _) (fun _ => ⟨rfl, rfl⟩) (I := B) (O := B) (st := st3) (by rw [n3]; simp [hB]) (by rw [n3]; simp [hB]) (fun _ => rfl) (by simp)
  have := v q hq
  rw [val_c] at this
  have f1 : blueW w n nb cld (2 * q) = (cld.dftApply B (B + (1 : ℤ)) B (B + (1 : ℤ)) st3).mem (B + (q : ℤ) * 2) := by
    unfold blueW; dsimp only
    rw [← hB, ← hst0, ← hst1, e2, ← e3]; congr 2; push_cast; ring
  have f2 : blueW w n nb cld (2 * q + 1) = (cld.dftApply B (B + (1 : ℤ)) B (B + (1 : ℤ)) st3).mem (B + (1 + (q : ℤ) * 2)) := by
    unfold blueW; dsimp only
    rw [← hB, ← hst0, ← hst1, e2, ← e3]; congr 2; push_cast; ring
  rw [f1, f2, this]
  refine sum_congr rfl fun i hi => ?_
  rw [mem_range] at hi
  rw [v3 i hi, chirpPad]
  congr 1
  by_cases c1 : i < n
  · rw [if_pos c1, if_pos (show i ≤ n - 1 by omega)]
  · rw [if_neg c1, if_neg (show ¬ i ≤ n - 1 by omega)]
    by_cases c2 : nb - i < n
    · rw [if_pos c2, if_pos (show nb - i ≤ n - 1 by omega)]
    · rw [if_neg c2, if_neg (show ¬ nb - i ≤ n - 1 by omega), zero_div]

/-- exchange of real and imaginary parts -/
def swapRI (z : ℂ) : ℂ := ⟨z.im, z.re⟩

theorem swapRI_eq (z : ℂ) : swapRI z = Complex.I * (starRingEnd ℂ) z := by
  apply Complex.ext <;> simp [swapRI]

theorem blueApply_ok {d : Dim} {nb : ℕ} (hn : 0 < d.n) (hnb : 2 * d.n - 1 ≤ nb) {w : ℕ → ℝ × ℝ} {W : ℕ → ℝ}
    (hw : ∀ k < d.n, (⟨(w k).1, (w k).2⟩ : ℂ) = (starRingEnd ℂ) (ω (2 * d.n) ^ (k * k)))
    (hW : ∀ q < nb, (⟨W (2 * q), W (2 * q + 1)⟩ : ℂ) = ∑ i ∈ range nb, ω nb ^ (i * q) * (chirpPad d.n nb i / nb))
    {δi δo : ℤ} {cld : Plan} {nd1 inpl nd : Bool}
    (hG : GOK dftK [((⟨nb, 2, 2⟩ : Dim), ())] (some [⟨1, 0, 0⟩]) 1 1 true nd1 (fun I O => cld.dftApply I (I + (1 : ℤ)) O (O + (1 : ℤ)))) :
    GOK dftK [(d, ())] (some []) δi δo inpl nd (fun I O => blueApply w W cld d.n nb d.is d.os I (I + δi) O (O + δo)) := by
  apply GOK_rank1
  intro hout _ I O st hI hO _ _
  have hout : PInj δo d.os d.n := hout
  obtain ⟨n, is, os⟩ := d
  simp only at *
  set B : Ptr := st.fresh with hB
  have hBb : B.blk = st.next := rfl
  have ne : ∀ {p : Ptr} {x y : ℤ}, p.blk < st.next → p + x ≠ B + y := by
    intro p x y h he
    have h2 := congrArg Ptr.blk he
    have : p.blk = B.blk := h2
    omega
  have neB : ∀ {q : Ptr} {y : ℤ}, q.blk < st.next → q ≠ B + y := by
    intro q y h he
    have h2 := congrArg Ptr.blk he
    have : q.blk = B.blk := h2
    omega
  set x : ℕ → ℂ := fun m => val st.mem I δi ((m : ℤ) * is) with hx
  -- multiplication by the conjugate sequence
  obtain ⟨st1, hst1⟩ : ∃ st1, st1 = (List.range n).foldl (fun st (i : ℕ) => put B 1 ((i : ℤ) * 2) (val st.mem I δi ((i : ℤ) * is) * (starRingEnd ℂ) ⟨(w i).1, (w i).2⟩) st) st.malloc := ⟨_, rfl⟩
  have e1 : forN n (fun i st =>
      let xr := st.mem (I + (i : ℤ) * is)
      let xi := st.mem (I + δi + (i : ℤ) * is)
      let wr := (w i).1
      let wi := (w i).2
      (st.set (B + (2 * (i : ℤ))) (xr * wr + xi * wi)).set (B + (2 * (i : ℤ) + 1)) (xi * wr - xr * wi)) st.malloc = st1 := by
    rw [forN_foldl, hst1]
    congr 1
    funext st i
    dsimp only
    rw [put_eq1, val_c, Ptr.add_add I, mul_comm (2 : ℤ)]
    congr 1
    apply Complex.ext <;> simp <;> ring
  obtain ⟨a1, a2, a3⟩ := puts_spec (B := B) (δ := 1) (o := fun i : ℕ => (i : ℤ) * 2) (F := fun i μ => val μ I δi ((i : ℤ) * is) * (starRingEnd ℂ) ⟨(w i).1, (w i).2⟩) (W := fun q => q.blk = B.blk)
    (List.range n) (by simp) (by
      intro k _ m m' hm
      congr 1
      apply Elt.dec_congr
      intro c _
      exact hm _ (by rw [Ptr.add_blk]; omega)) (by intro x _ y _ c c' hc hc' e; omega) List.nodup_range st.malloc
  rw [← hst1] at a1 a2 a3
  -- padding
  obtain ⟨st2, hst2⟩ : ∃ st2, st2 = (List.range (nb - n)).foldl (fun st (i : ℕ) => put B 1 (((n + i : ℕ) : ℤ) * 2) 0 st) st1 := ⟨_, rfl⟩
  have e2 : forN (nb - n) (fun i0 st =>
      let i : ℤ := (n : ℤ) + (i0 : ℤ)
      (st.set (B + (2 * i + 1)) 0).set (B + (2 * i)) 0) st1 = st2 := by
    rw [forN_foldl, hst2]
    congr 1
    funext st i
    dsimp only
    rw [put_eq1', mul_comm (2 : ℤ)]
    push_cast
    rfl
  obtain ⟨b1, b2, b3⟩ := puts_spec (B := B) (δ := 1) (o := fun i : ℕ => ((n + i : ℕ) : ℤ) * 2) (F := fun _ _ => (0 : ℂ)) (W := fun _ => True)
    (List.range (nb - n)) (by simp) (by simp) (by intro x _ y _ c c' hc hc' e; omega) List.nodup_range st1
  rw [← hst2] at b1 b2 b3
  have n2 : st2.next = st.next + 1 := by rw [b1, a1]; rfl
  have v2 : ∀ j < nb, (val st2.mem B 1 ((j : ℤ) * 2) : ℂ) = if j < n then x j * ω (2 * n) ^ (j * j) else 0 := by
    intro j hj
    by_cases h : j < n
    · have : (val st2.mem B 1 ((j : ℤ) * 2) : ℂ) = val st1.mem B 1 ((j : ℤ) * 2) := by
        apply val_congr
        intro c hc
        apply b2
        intro i _ c' hc' e
        rw [ptr_add_right_inj] at e
        have hc : c < 2 := hc
        omega
      rw [this, a3 j (List.mem_range.2 h), if_pos h, hw j h, Complex.conj_conj]
      rfl
    · rw [if_neg h, ← b3 (j - n) (List.mem_range.2 (by omega))]
      congr 2
      omega
  have f2 : ∀ q, q.blk < st.next → st2.mem q = st.mem q := by
    intro q hq
    rw [b2 q (fun _ _ _ _ => neB hq), a2 q (fun _ _ _ _ => neB hq)]
    rfl
  -- first transform
  obtain ⟨c1, c2, c3⟩ := hG.rank1 (bufPInj _) (fun _ => bufPInj _) (fun _ => ⟨rfl, rfl⟩) (I := B) (O := B) (st := st2) (by omega) (by omega) (fun _ => rfl) (by simp)
  obtain ⟨st3, hst3⟩ : ∃ st3, st3 = cld.dftApply B (B + (1 : ℤ)) B (B + (1 : ℤ)) st2 := ⟨_, rfl⟩
  rw [← hst3] at c1 c2 c3
  -- pointwise multiplication
  obtain ⟨st4, hst4⟩ : ∃ st4, st4 = upds B 1 ((List.range nb).flatMap fun (i : ℕ) => [((i : ℤ) * 2, fun z => swapRI (z * ⟨W (2 * i), W (2 * i + 1)⟩))]) st3 := ⟨_, rfl⟩
  have e4 : forN nb (fun i st =>
      let xr := st.mem (B + (2 * (i : ℤ)))
      let xi := st.mem (B + (2 * (i : ℤ) + 1))
      let wr := W (2 * i)
      let wi := W (2 * i + 1)
      (st.set (B + (2 * (i : ℤ))) (xi * wr + xr * wi)).set (B + (2 * (i : ℤ) + 1)) (xr * wr - xi * wi)) st3 = st4 := by
    rw [hst4, ← forN_upds]
    refine forN_congr (fun k _ st => ?_) _
    dsimp only [upds, List.foldl, upd1]
    rw [put_eq1, val_c, mul_comm (2 : ℤ), add_comm (1 : ℤ)]
    congr 1
    apply Complex.ext <;> simp [swapRI] <;> ring
  have hSI : SInj 1 (fun o => ∃ k : ℕ, k < nb ∧ o = (k : ℤ) * 2) := by
    rintro c c' o o' hc hc' ⟨k, hk, rfl⟩ ⟨k', hk', rfl⟩ e
    omega
  obtain ⟨d1, d2, -, d4⟩ := upds_spec hSI (P := B) (W := fun q => q.blk = B.blk) (by intro o _ c _; rfl)
    ((List.range nb).flatMap fun (i : ℕ) => [((i : ℤ) * 2, fun z => swapRI (z * ⟨W (2 * i), W (2 * i + 1)⟩))]) (by
      intro e he
      simp only [List.mem_flatMap, List.mem_range, List.mem_singleton] at he
      obtain ⟨k, hk, rfl⟩ := he
      exact ⟨k, by omega, rfl⟩) (by
      rw [List.map_flatMap]
      simp only [List.map_cons, List.map_nil]
      rw [← List.map_eq_flatMap]
      refine List.nodup_range.map_on ?_
      intro k hk k' hk' e
      omega) st3
  rw [← hst4] at d1 d2 d4
  have v4 : ∀ q < nb, (val st4.mem B 1 ((q : ℤ) * 2) : ℂ) = Complex.I * (starRingEnd ℂ) ((∑ j ∈ range nb, ω nb ^ (j * q) * (if j < n then x j * ω (2 * n) ^ (j * j) else 0)) * ∑ i ∈ range nb, ω nb ^ (i * q) * (chirpPad n nb i / nb)) := by
    intro q hq
    have := d4 ((q : ℤ) * 2, fun z => swapRI (z * ⟨W (2 * q), W (2 * q + 1)⟩)) (by
      simp only [List.mem_flatMap, List.mem_range, List.mem_singleton]
      exact ⟨q, hq, rfl⟩)
    simp only at this
    rw [this, swapRI_eq, hW q hq, c3 q hq]
    congr 3
    refine sum_congr rfl fun j hj => ?_
    rw [v2 j (mem_range.1 hj)]
  -- second transform
  obtain ⟨g1, g2, g3⟩ := hG.rank1 (bufPInj _) (fun _ => bufPInj _) (fun _ => ⟨rfl, rfl⟩) (I := B) (O := B) (st := st4) (by omega) (by omega) (fun _ => rfl) (by simp)
  obtain ⟨st5, hst5⟩ : ∃ st5, st5 = cld.dftApply B (B + (1 : ℤ)) B (B + (1 : ℤ)) st4 := ⟨_, rfl⟩
  rw [← hst5] at g1 g2 g3
  have f5 : ∀ q, q.blk < st.next → st5.mem q = st.mem q := by
    intro q hq
    rw [g2 q (by omega) (fun _ _ _ _ => neB hq) (fun _ _ _ _ => neB hq), d1.mem q (by omega) (show ¬ q.blk = B.blk by omega),
      c2 q (by omega) (fun _ _ _ _ => neB hq) (fun _ _ _ _ => neB hq), f2 q hq]
  -- the output
  obtain ⟨st6, hst6⟩ : ∃ st6, st6 = (List.range n).foldl (fun st (i : ℕ) => put O δo ((i : ℤ) * os) (swapRI (val st.mem B 1 ((i : ℤ) * 2)) * (starRingEnd ℂ) ⟨(w i).1, (w i).2⟩) st) st5 := ⟨_, rfl⟩
  have e6 : forN n (fun i st =>
      let xi := st.mem (B + (2 * (i : ℤ)))
      let xr := st.mem (B + (2 * (i : ℤ) + 1))
      let wr := (w i).1
      let wi := (w i).2
      (st.set (O + (i : ℤ) * os) (xr * wr + xi * wi)).set (O + δo + (i : ℤ) * os) (xi * wr - xr * wi)) st5 = st6 := by
    rw [forN_foldl, hst6]
    congr 1
    funext st i
    dsimp only
    rw [put_eq, val_c, mul_comm (2 : ℤ), add_comm (1 : ℤ)]
    congr 1
    apply Complex.ext <;> simp [swapRI] <;> ring
  obtain ⟨h1, h2, h3⟩ := puts_spec (B := O) (δ := δo) (o := fun i : ℕ => (i : ℤ) * os) (F := fun i μ => swapRI (val μ B 1 ((i : ℤ) * 2)) * (starRingEnd ℂ) ⟨(w i).1, (w i).2⟩) (W := fun q => q.blk < st.next)
    (List.range n) (by intro k _ c _; exact hO) (by
      intro k _ m m' hm
      congr 2
      apply Elt.dec_congr
      intro c _
      exact hm _ (by rw [Ptr.add_blk]; omega)) (by
      intro k hk k' hk' c c' hc hc' e
      rw [List.mem_range] at hk hk'
      exact hout c c' _ _ hc hc' hk hk' e) List.nodup_range st5
  rw [← hst6] at h1 h2 h3
  have hfun : (blueApply w W cld n nb is os I (I + δi) O (O + δo) st).mem = st6.mem := by
    unfold blueApply
    rw [withBuf_mem]
    dsimp only
    rw [← hB, e1, e2, ← hst3, e4, ← hst5, e6]
  refine ⟨⟨le_refl _, ?_⟩, ?_⟩
  · intro q hq hw
    rw [hfun, h2 q, f5 q hq]
    intro k hk c hc e; exact hw (Or.inl ⟨c, k, hc, List.mem_range.1 hk, e⟩)
  · intro k hk
    rw [hfun, h3 k (List.mem_range.2 hk), ← blue_math (by omega) hnb x hk, hw k hk, Complex.conj_conj, mul_comm, g3 k (by omega)]
    congr 1
    rw [swapRI_eq, map_sum, mul_sum]
    refine sum_congr rfl fun q hq => ?_
    rw [v4 q (mem_range.1 hq)]
    simp only [map_mul, Complex.conj_conj, Complex.conj_I]
    linear_combination (-(starRingEnd ℂ) (ω nb ^ (q * k)) * ((∑ i ∈ range nb, ω nb ^ (i * q) * (chirpPad n nb i / nb)) * ∑ j ∈ range nb, ω nb ^ (j * q) * (if j < n then x j * ω (2 * n) ^ (j * j) else 0))) * Complex.I_mul_I

theorem chooseTransformSize_ge (m r : Int) (h : chooseTransformSize m = some r) : m ≤ r := by
  refine chooseTransformSize.partial_correctness (fun m r => m ≤ r) ?_ m r h
  clear h m r
  intro f ih m r h
  simp only [Option.bind_eq_bind] at h
  obtain ⟨b, hb, h⟩ := Option.bind_eq_some_iff.1 h
  split at h
  · obtain rfl := Option.some.inj h; exact le_refl _
  · obtain ⟨m', hm', h⟩ := Option.bind_eq_some_iff.1 h
    obtain rfl := Primes.cadd_eq hm'
    have := ih _ _ h
    omega

theorem blueNb_ge {n : ℕ} {r : Int} (h : blueNb n = some r) : 2 * (n : ℤ) - 1 ≤ r := by
  unfold blueNb at h
  simp only [Option.bind_eq_bind] at h
  obtain ⟨a, ha, h⟩ := Option.bind_eq_some_iff.1 h
  obtain ⟨b, hb, h⟩ := Option.bind_eq_some_iff.1 h
  obtain rfl := Primes.cmul_eq ha
  obtain rfl := Primes.csub_eq hb
  exact chooseTransformSize_ge _ _ h

variable [CLib]

theorem bluestein_sound {cexp : ℕ → ℤ → ℝ × ℝ} (hc : ExactCexp cexp) (taste : Taste) : (bluestein cexp taste).Sound := by
  apply dftSolver_sound
  intro p fl hk
  split
  rotate_left
  · exact good_nada
  rename_i d hsz hv
  split
  rotate_left
  · exact good_nada
  rename_i happ
  have hp : d.n.Prime := by
    have := Primes.isPrime_true happ.2.1
    rwa [Int.toNat_natCast] at this
  split
  · exact good_nada
  rename_i nbI hnb
  have hge := blueNb_ge hnb
  have hn2 := hp.two_le
  have hnb' : 2 * d.n - 1 ≤ nbI.toNat := by omega
  have hnb0 : 0 < nbI.toNat := by omega
  dsimp only
  have ed : ∀ p : Ptr, (p + (1 : ℤ) - p : ℤ) = 1 := by intro p; show p.off + 1 - p.off = 1; ring
  apply good_need
  · refine kosher_mkproblemDft ?_ ?_ ?_ ?_
    · simp [NonNeg]
    · rw [nonNegV_some]; simp [NonNeg]
    · simp only [Pos, List.mem_singleton, forall_eq]; exact hnb0
    · intro h; exact absurd rfl h
  intro c h3
  obtain ⟨hG, -⟩ := sound_mkproblemDft h3
  rw [ed, decide_eq_true rfl] at hG
  apply good_ret
  refine soundDft (by simp [hv]) ?_
  rw [hsz, hv]
  have hw := fun k hk => blueSeq_ok hc hp (k := k) hk
  exact blueApply_ok hp.pos hnb' hw (fun q hq => blueW_ok hp.pos hnb' hw hG hq) hG

end FFTW.DftS
