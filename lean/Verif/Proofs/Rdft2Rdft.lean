import Verif.Proofs.Rows

/-! # Real-to-complex problems solved by halfcomplex transforms: rdft2-rdft.c -/

namespace FFTW
open Tensor Spec DftS RdftS Finset Api

theorem zig_even (a s : ℤ) (i : ℕ) : zig a s (2 * i) = (i : ℤ) * s := by
  rw [zig, show 2 * i % 2 = 0 by omega, show 2 * i / 2 = i by omega]; simp
theorem zig_odd (a s : ℤ) (i : ℕ) : zig a s (2 * i + 1) = a + (i : ℤ) * s := by
  rw [zig, show (2 * i + 1) % 2 = 1 by omega, show (2 * i + 1) / 2 = i by omega]; simp
/-- an ordinary array -/
theorem zig_double (ρ : ℤ) (t : ℕ) : zig ρ (2 * ρ) t = (t : ℤ) * ρ := by
  have : (t : ℤ) = ((t % 2 : ℕ) : ℤ) + 2 * ((t / 2 : ℕ) : ℤ) := by exact_mod_cast (Nat.mod_add_div t 2).symm
  rw [zig]; conv_rhs => rw [this]
  ring

/-- halfcomplex format to `n/2+1` complex numbers -/
def hcv (n : ℕ) (x : ℕ → ℝ) (t : ℕ) : ℝ := if t % 2 = 0 then x (t / 2) else if t / 2 = 0 ∨ 2 * (t / 2) = n then 0 else x (n - t / 2)
/-- `n/2+1` complex numbers to halfcomplex format -/
def chv (n : ℕ) (x : ℕ → ℝ) (k : ℕ) : ℝ := if 2 * k ≤ n then x (2 * k) else x (2 * (n - k) + 1)

theorem hcv_congr {n : ℕ} (x y : ℕ → ℝ) (h : ∀ i < n, x i = y i) (hn : 0 < n) (t : ℕ) (ht : t < 2 * (n / 2 + 1)) : hcv n x t = hcv n y t := by
  unfold hcv; split_ifs <;> first | rfl | exact h _ (by omega)
theorem chv_congr {n : ℕ} (x y : ℕ → ℝ) (h : ∀ i < 2 * (n / 2 + 1), x i = y i) (k : ℕ) (hk : k < n) : chv n x k = chv n y k := by
  unfold chv; split_ifs <;> exact h _ (by omega)

theorem hc2c_rows {n : ℕ} (hn : 0 < n) (nb : ℕ) (bd ovs δ os : ℤ) :
    Rows n (2 * (n / 2 + 1)) (fun k => (k : ℤ) * 1) (zig δ os) (hcv n) nb bd ovs true
      (fun I O st => forN nb (fun j => (fun I O => Rdft2S.hc2c n I O (O + δ) os) (I + (j : ℤ) * bd) (O + (j : ℤ) * ovs)) st) := by
  refine Rows.of_loop (g := fun I O => Rdft2S.hc2c n I O (O + δ) os) (fun x y h t ht => hcv_congr x y h hn t ht) ?_
  intro I O st hinj hd
  set P : ℕ → Ptr := fun t => O + zig δ os t with hP
  set X := hcv n (fun i => st.mem (I + (i : ℤ) * 1)) with hX
  have rd : ∀ (s : State) (S : ℕ → Prop) (i : ℕ), i < n → FillP st.mem st.next (2 * (n / 2 + 1)) P X S s → s.mem (I + (i : ℤ)) = st.mem (I + (i : ℤ)) := by
    intro s S i hi h
    exact h.out _ fun k hk e => hd i hi k hk (by simpa using e)
  have p0 : ∀ i : ℕ, O + (i : ℤ) * os = P (2 * i) := fun i => by rw [hP]; simp only [zig_even]
  have p1 : ∀ i : ℕ, O + δ + (i : ℤ) * os = P (2 * i + 1) := fun i => by rw [hP]; simp only [zig_odd, Ptr.add_add]
  have f0 := FillP.start st (2 * (n / 2 + 1)) P X
  have f1 := f0.set hinj (k := 0) (by omega) (p := O) (v := st.mem I) (by have := p0 0; simpa using this) (by rw [hX]; simp [hcv])
  have f2 := f1.set hinj (k := 1) (by omega) (p := O + δ) (v := 0) (by have := p1 0; simpa using this) (by rw [hX]; simp [hcv])
  unfold Rdft2S.hc2c
  dsimp only
  generalize hst : forN _ _ _ = s1
  have f3 : FillP st.mem st.next (2 * (n / 2 + 1)) P X (fun t => t < 2 * ((n - 1) / 2 + 1)) s1 := by
    rw [← hst]
    refine FillP.loop (S := fun i t => t < 2 * (i + 1)) (f2.mono fun k hk h => ?_) ?_
    · simp only [false_or]; omega
    · intro i hi s h
      have g1 := h.set hinj (k := 2 * (i + 1)) (by omega) (p := O + ((i + 1 : ℕ) : ℤ) * os) (v := s.mem (I + ((i + 1 : ℕ) : ℤ))) (p0 _)
        (by rw [rd s _ _ (by omega) h, hX, hcv, if_pos (by omega), show 2 * (i + 1) / 2 = i + 1 by omega]; simp)
      have g2 := g1.set hinj (k := 2 * (i + 1) + 1) (by omega) (p := O + δ + ((i + 1 : ℕ) : ℤ) * os)
        (v := (s.set (O + ((i + 1 : ℕ) : ℤ) * os) (s.mem (I + ((i + 1 : ℕ) : ℤ)))).mem (I + ((n - (i + 1) : ℕ) : ℤ))) (p1 _)
        (by rw [rd _ _ _ (by omega) g1, hX, hcv, if_neg (by omega), if_neg (by omega), show (2 * (i + 1) + 1) / 2 = i + 1 by omega]; simp)
      exact g2.mono fun k hk h => by omega
  split
  · rename_i he
    set i := (n - 1) / 2 + 1 with hi
    have g1 := f3.set hinj (k := 2 * i) (by omega) (p := O + (i : ℤ) * os) (v := s1.mem (I + (i : ℤ))) (p0 _)
      (by rw [rd s1 _ _ (by omega) f3, hX, hcv, if_pos (by omega), show 2 * i / 2 = i by omega]; simp)
    have g2 := g1.set hinj (k := 2 * i + 1) (by omega) (p := O + δ + (i : ℤ) * os) (v := 0) (p1 _)
        (by rw [hX, hcv, if_neg (by omega), if_pos (by omega)])
    exact g2.mono fun k hk h => by omega
  · exact f3.mono fun k hk h => by omega

theorem c2hc_rows {n : ℕ} (hn : 0 < n) (nb : ℕ) (bd ivs δ is : ℤ) :
    Rows (2 * (n / 2 + 1)) n (zig δ is) (fun k => (k : ℤ) * 1) (chv n) nb ivs bd true
      (fun I O st => forN nb (fun j => (fun I O => Rdft2S.c2hc n I (I + δ) is O) (I + (j : ℤ) * ivs) (O + (j : ℤ) * bd)) st) := by
  refine Rows.of_loop (g := fun I O => Rdft2S.c2hc n I (I + δ) is O) (fun x y h t ht => chv_congr x y h t ht) ?_
  intro I O st hinj hd
  set P : ℕ → Ptr := fun t => O + (t : ℤ) * 1 with hP
  set X := chv n (fun i => st.mem (I + zig δ is i)) with hX
  have rd0 : ∀ (s : State) (S : ℕ → Prop) (i : ℕ), 2 * i ≤ n → FillP st.mem st.next n P X S s → s.mem (I + (i : ℤ) * is) = st.mem (I + zig δ is (2 * i)) := by
    intro s S i hi h
    rw [zig_even]
    exact h.out _ fun k hk e => hd (2 * i) (by omega) k hk (by rw [zig_even]; exact e)
  have rd1 : ∀ (s : State) (S : ℕ → Prop) (i : ℕ), 2 * i ≤ n → FillP st.mem st.next n P X S s → s.mem (I + δ + (i : ℤ) * is) = st.mem (I + zig δ is (2 * i + 1)) := by
    intro s S i hi h
    rw [zig_odd, Ptr.add_add]
    exact h.out _ fun k hk e => hd (2 * i + 1) (by omega) k hk (by rw [zig_odd]; exact e)
  have p0 : ∀ i : ℕ, O + (i : ℤ) = P i := fun i => by rw [hP]; simp
  have f0 := FillP.start st n P X
  have f1 := f0.set hinj (k := 0) hn (p := O) (v := st.mem I) (by have := p0 0; simpa using this) (by rw [hX]; simp [chv, zig_zero])
  unfold Rdft2S.c2hc
  dsimp only
  generalize hst : forN _ _ _ = s1
  have f3 : FillP st.mem st.next n P X (fun t => t ≤ (n - 1) / 2 ∨ n - (n - 1) / 2 ≤ t) s1 := by
    rw [← hst]
    refine FillP.loop (S := fun i t => t ≤ i ∨ n - i ≤ t) (f1.mono fun k hk h => ?_) ?_
    · simp only [false_or]; omega
    · intro i hi s h
      have g1 := h.set hinj (k := i + 1) (by omega) (p := O + ((i + 1 : ℕ) : ℤ)) (v := s.mem (I + ((i + 1 : ℕ) : ℤ) * is)) (p0 _)
        (by rw [rd0 s _ _ (by omega) h, hX, chv, if_pos (by omega)])
      have g2 := g1.set hinj (k := n - (i + 1)) (by omega) (p := O + ((n - (i + 1) : ℕ) : ℤ))
        (v := (s.set (O + ((i + 1 : ℕ) : ℤ)) (s.mem (I + ((i + 1 : ℕ) : ℤ) * is))).mem (I + δ + ((i + 1 : ℕ) : ℤ) * is)) (p0 _)
        (by rw [rd1 _ _ _ (by omega) g1, hX, chv, if_neg (by omega), show n - (n - (i + 1)) = i + 1 by omega])
      exact g2.mono fun k hk h => by omega
  split
  · rename_i he
    set i := (n - 1) / 2 + 1 with hi
    have g1 := f3.set hinj (k := i) (by omega) (p := O + (i : ℤ)) (v := s1.mem (I + (i : ℤ) * is)) (p0 _)
      (by rw [rd0 s1 _ _ (by omega) f3, hX, chv, if_pos (by omega)])
    exact g1.mono fun k hk h => by omega
  · exact f3.mono fun k hk h => by omega

/-! ### the arithmetic -/

theorem r2c_of_hc {n : ℕ} (hn : 0 < n) (x : ℕ → ℝ) (ρ rs δ cs : ℤ) (t : ℕ) (ht : t < 2 * (n / 2 + 1)) :
    hcv n (fun k => ∑ j ∈ range n, rK .R2HC00 n j k * x j) t =
      (r2cHalf n ρ rs δ cs).P t (∑ i ∈ range n, (r2cHalf n ρ rs δ cs).c t i * ((x i : ℝ) : ℂ)) := by
  have hn' : (n : ℝ) ≠ 0 := by exact_mod_cast hn.ne'
  simp only [r2cHalf, hcv]
  split_ifs with h1 h2
  · rw [Complex.re_sum]
    refine sum_congr rfl fun j _ => ?_
    rw [r2hc_lo j (by omega), ω_pow_cos]
    simp only [Complex.mul_re, Complex.ofReal_re, Complex.ofReal_im, mul_zero, sub_zero]
    congr 2; push_cast; ring
  · rw [Complex.im_sum]
    refine (sum_eq_zero fun j _ => ?_).symm
    rw [ω_pow_cos]
    simp only [Complex.mul_im, Complex.ofReal_re, Complex.ofReal_im, mul_zero, zero_add]
    rw [mul_eq_zero]; left
    rw [neg_eq_zero]
    rcases h2 with h2 | h2
    · rw [h2]; simp
    · have : 2 * Real.pi * ((j * (t / 2) : ℕ) : ℝ) / n = j * Real.pi := by
        have : (n : ℝ) = 2 * ((t / 2 : ℕ) : ℝ) := by exact_mod_cast h2.symm
        rw [this] at hn' ⊢
        have : ((t / 2 : ℕ) : ℝ) ≠ 0 := fun e => hn' (by rw [e]; simp)
        rw [Nat.cast_mul]; field_simp
      rw [this]; exact Real.sin_nat_mul_pi j
  · rw [Complex.im_sum]
    refine sum_congr rfl fun j _ => ?_
    rw [r2hc_hi j (by omega) (by omega), ω_pow_cos]
    simp only [Complex.mul_im, Complex.ofReal_re, Complex.ofReal_im, mul_zero, zero_add]
    congr 3; push_cast; ring

theorem sum_two (m : ℕ) (f : ℕ → ℂ) : ∑ i ∈ range (2 * m), f i = ∑ p ∈ range m, (f (2 * p) + f (2 * p + 1)) := by
  induction m with
  | zero => simp
  | succ m ih => rw [show 2 * (m + 1) = 2 * m + 1 + 1 by ring, sum_range_succ, sum_range_succ, ih, sum_range_succ]; ring

theorem c2r_of_hc {n : ℕ} (hn : 0 < n) (x : ℕ → ℝ) (ρ rs δ cs : ℤ) (t : ℕ) :
    ∑ j ∈ range n, rK .HC2R00 n j t * chv n x j =
      (c2rHalf n ρ rs δ cs).P t (∑ i ∈ range (2 * (n / 2 + 1)), (c2rHalf n ρ rs δ cs).c t i * ((x i : ℝ) : ℂ)) := by
  have hn' : (n : ℝ) ≠ 0 := by exact_mod_cast hn.ne'
  simp only [c2rHalf]
  rw [sum_two, Complex.re_sum]
  have term : ∀ p, ((mult n (2 * p / 2) : ℂ) * star (ω n ^ (t * (2 * p / 2))) * (if 2 * p % 2 = 0 then 1 else Complex.I) * ((x (2 * p) : ℝ) : ℂ) +
      (mult n ((2 * p + 1) / 2) : ℂ) * star (ω n ^ (t * ((2 * p + 1) / 2))) * (if (2 * p + 1) % 2 = 0 then 1 else Complex.I) * ((x (2 * p + 1) : ℝ) : ℂ)).re =
      (mult n p : ℝ) * (Real.cos (2 * Real.pi * p * t / n) * x (2 * p) - Real.sin (2 * Real.pi * p * t / n) * x (2 * p + 1)) := by
    intro p
    rw [show 2 * p / 2 = p by omega, show (2 * p + 1) / 2 = p by omega, if_pos (by omega), if_neg (by omega), ω_pow_cos]
    have e : 2 * Real.pi * ((t * p : ℕ) : ℝ) / n = 2 * Real.pi * p * t / n := by push_cast; ring
    rw [e]
    simp [-Complex.ofReal_cos, -Complex.ofReal_sin]
    ring
  simp only [term]
  rw [sum_pairs hn]
  have m0 : mult n 0 = 1 := by simp [mult]
  rcases Nat.even_or_odd' n with ⟨m, rfl | rfl⟩
  · obtain ⟨m, rfl⟩ : ∃ k, m = k + 1 := ⟨m - 1, by omega⟩
    rw [show 2 * (m + 1) / 2 + 1 = m + 1 + 1 by omega, sum_range_succ, sum_range_succ', show (2 * (m + 1) - 1) / 2 = m by omega, if_pos (by omega),
      show 2 * (m + 1) / 2 = m + 1 by omega, m0, hc2r_zero, hc2r_mid t rfl (by omega)]
    have mm : mult (2 * (m + 1)) (m + 1) = 1 := by simp [mult]
    have ec : 2 * Real.pi * ((m + 1 : ℕ) : ℝ) * t / ((2 * (m + 1) : ℕ) : ℝ) = t * Real.pi := by
      have : ((m + 1 : ℕ) : ℝ) ≠ 0 := by positivity
      rw [Nat.cast_mul]; field_simp; push_cast; ring
    rw [mm, ec, Real.cos_nat_mul_pi, Real.sin_nat_mul_pi]
    simp only [chv, Nat.mul_zero, zero_le, if_true, le_refl]
    rw [add_comm (∑ k ∈ range m, _)]
    congr 1
    · congr 1
      · simp
      · refine sum_congr rfl fun i hi => ?_
        have := mem_range.1 hi
        rw [hc2r_lo t (by omega) (by omega), hc2r_hi t (by omega) (by omega), if_pos (by omega), if_neg (by omega),
          show 2 * (m + 1) - (2 * (m + 1) - (i + 1)) = i + 1 by omega]
        have : mult (2 * (m + 1)) (i + 1) = 2 := by rw [mult, if_neg (by omega)]
        rw [this]; push_cast; ring
    · simp
  · rw [show (2 * m + 1) / 2 + 1 = m + 1 by omega, sum_range_succ', show (2 * m + 1 - 1) / 2 = m by omega, if_neg (by omega), m0, hc2r_zero]
    simp only [chv, Nat.mul_zero, zero_le, if_true]
    rw [add_comm (∑ k ∈ range m, _), add_zero]
    congr 1
    · simp
    · refine sum_congr rfl fun i hi => ?_
      have := mem_range.1 hi
      rw [hc2r_lo t (by omega) (by omega), hc2r_hi t (by omega) (by omega), if_pos (by omega), if_neg (by omega),
        show 2 * m + 1 - (2 * m + 1 - (i + 1)) = i + 1 by omega]
      have : mult (2 * m + 1) (i + 1) = 2 := by rw [mult, if_neg (by omega)]
      rw [this]; push_cast; ring

end FFTW
