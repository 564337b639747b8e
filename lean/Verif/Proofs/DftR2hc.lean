import Verif.Proofs.RdftSolvers
import Verif.Proofs.DftMath

namespace FFTW.RdftS
open Tensor Spec DftS Copy
variable [CLib]

omit [CLib] in
theorem pairs_flip1 (d : Dim) (l l' : List Dim) (s : ℤ × ℤ) (h : pairs (some l) = (pairs (some l')).map fun v => s + v) :
    pairs (some (d :: l)) = (pairs (some (flipDim d :: l'))).map fun v => (if d.is < 0 then (s.1 + ((d.n : ℤ) - 1) * d.is, s.2 + ((d.n : ℤ) - 1) * d.os) else s) + v := by
  rw [pairs_cons, pairs_cons, h]
  unfold flipDim
  split
  · rw [Multiset.map_bind]
    have e : Multiset.range d.n = (Multiset.range d.n).map fun i => d.n - 1 - i := by
      rw [show Multiset.range d.n = (Finset.range d.n).val from rfl]
      have himg : (Finset.range d.n).image (fun i => d.n - 1 - i) = Finset.range d.n := by
        ext x; simp only [Finset.mem_image, Finset.mem_range]
        constructor
        · rintro ⟨y, hy, rfl⟩; omega
        · intro hx; exact ⟨d.n - 1 - x, by omega, by omega⟩
      have hinj : Set.InjOn (fun i => d.n - 1 - i) (Finset.range d.n : Set ℕ) := by
        intro a ha b hb hab
        simp only [Finset.coe_range, Set.mem_Iio] at ha hb hab; omega
      conv_lhs => rw [← himg, Finset.image_val_of_injOn hinj]
    conv_lhs => rw [e]
    rw [Multiset.bind_map]
    refine Multiset.bind_congr fun i hi => ?_
    rw [Multiset.map_map, Multiset.map_map]
    refine Multiset.map_congr rfl fun v _ => ?_
    have hi := Multiset.mem_range.1 hi
    have e1 : ((d.n - 1 - i : ℕ) : ℤ) = (d.n : ℤ) - 1 - i := by omega
    simp only [Function.comp, e1]
    ext <;> simp <;> ring
  · rw [Multiset.map_bind]
    refine Multiset.bind_congr fun i hi => ?_
    rw [Multiset.map_map, Multiset.map_map]
    refine Multiset.map_congr rfl fun v _ => ?_
    simp only [Function.comp]
    ext <;> simp <;> ring

/-- flipping dimensions visits the same locations, from the other end -/
theorem pairs_flip (l : List Dim) : pairs (some l) = (pairs (some (l.map flipDim))).map fun v => flipShift l + v := by
  induction l with
  | nil => simp [flipShift, pairs, offs]; rfl
  | cons d l ih =>
    rw [List.map_cons, pairs_flip1 d l _ _ ih]
    congr 1

theorem flipShift_cons (d : Dim) {l : List Dim} (h : NonNeg l) :
    flipShift (d :: l) = if d.is < 0 then (((d.n : ℤ) - 1) * d.is, ((d.n : ℤ) - 1) * d.os) else (0, 0) := by
  have h0 : flipShift l = (0, 0) := by
    induction l with
    | nil => rfl
    | cons e l ih =>
      rw [nonNeg_cons] at h
      rw [flipShift, ih h.2]
      have := h.1.1
      simp; omega
  rw [flipShift, h0]; simp

omit [CLib] in
theorem flip_pairs_append {sz : List Dim} {l l' : List Dim} {s : ℤ × ℤ} (h : pairs (some l) = (pairs (some l')).map fun v => s + v) :
    pairs (append (some sz) (some l)) = (pairs (append (some sz) (some l'))).map fun v => s + v := by
  rw [pairs_append, pairs_append, h, Multiset.map_bind]
  refine Multiset.bind_congr fun x _ => ?_
  rw [Multiset.map_map, Multiset.map_map]
  refine Multiset.map_congr rfl fun v _ => ?_
  simp only [Function.comp]; abel

/-- real and imaginary parts as an additional vector dimension -/
theorem GOK_reim {δi δo : ℤ} {sz : List Dim} {kd : RKind} {v : List Dim} {inpl nd : Bool} {f : Ptr → Ptr → State → State}
    (h : GOK rK (sz.map fun d => (d, kd)) (some (⟨2, δi, δo⟩ :: v)) 0 0 inpl nd f) (wf : WF ℂ (tag sz) (some v) δi δo inpl nd)
    (I O : Ptr) (st : State) (hc : Compat (locT ℂ δi δo (tag sz) (some v)) inpl I O st) :
    Frame st (f I O st) (Writable (locT ℂ δi δo (tag sz) (some v)) nd I O) ∧
    ∀ dk, GIdx (sz.map fun d => (d, kd)) dk → ∀ ab ∈ pairs (some v), ∀ c : ℕ, c < 2 →
      (f I O st).mem (O + ((c : ℤ) * δo + (gOut dk + ab.2))) = gSum rK dk fun o => st.mem (I + ((c : ℤ) * δi + (o + ab.1))) := by
  have e0 : (sz.map fun d => (d, kd)).map Prod.fst = sz := by simp [List.map_map, Function.comp_def]
  have hp : pairs (locT ℝ 0 0 (sz.map fun d => (d, kd)) (some (⟨2, δi, δo⟩ :: v))) = pairs (locT ℂ δi δo (tag sz) (some v)) := by
    rw [pairs_locT_real, e0, append, locT_some, map_fst_tag]
    exact pairs_perm List.perm_middle
  have hi : ins (locT ℝ 0 0 (sz.map fun d => (d, kd)) (some (⟨2, δi, δo⟩ :: v))) = ins (locT ℂ δi δo (tag sz) (some v)) := by rw [ins_eq, ins_eq, hp]
  have ho : outs (locT ℝ 0 0 (sz.map fun d => (d, kd)) (some (⟨2, δi, δo⟩ :: v))) = outs (locT ℂ δi δo (tag sz) (some v)) := by rw [outs_eq, outs_eq, hp]
  have wf' : WF ℝ (sz.map fun d => (d, kd)) (some (⟨2, δi, δo⟩ :: v)) 0 0 inpl nd :=
    ⟨by rw [ho]; exact wf.out, fun h => by rw [hi]; exact wf.inp h, fun h => by rw [hi, ho]; exact wf.eq h, fun _ => rfl⟩
  have hc' : Compat (locT ℝ 0 0 (sz.map fun d => (d, kd)) (some (⟨2, δi, δo⟩ :: v))) inpl I O st :=
    ⟨hc.blkI, hc.blkO, hc.same, by rw [hi, ho]; exact hc.disj⟩
  obtain ⟨h1, h2⟩ := h wf' I O st hc'
  refine ⟨h1.mono fun q _ hq => by simpa only [Writable, hi, ho] using hq, ?_⟩
  intro dk hdk ab hab c hcc
  have := h2 dk hdk ((c : ℤ) * δi + ab.1, (c : ℤ) * δo + ab.2) (mem_pairs_cons.2 ⟨c, hcc, ab, hab, rfl⟩)
  simp only [val, Elt.dec] at this
  rw [show (c : ℤ) * δo + (gOut dk + ab.2) = ((0 : ℕ) : ℤ) * 0 + (gOut dk + ((c : ℤ) * δo + ab.2)) by push_cast; ring]
  rw [this]
  congr 1; funext o; congr 2; push_cast; ring

/-- the combination of two half-complex transforms -/
theorem combine_ok {n : ℕ} {os δo : ℤ} (hinj : PInj δo os n) (O : Ptr) (st : State) :
    Frame st (r2hcCombine n os O (O + δo) st) (fun q => ∃ c k : ℕ, c < 2 ∧ k < n ∧ q = O + ((c : ℤ) * δo + (k : ℤ) * os)) ∧
    ∀ k < n, (val (r2hcCombine n os O (O + δo) st).mem O δo ((k : ℤ) * os) : ℂ) =
      if k = 0 ∨ 2 * k = n then val st.mem O δo ((k : ℤ) * os)
      else if 2 * k < n then ⟨(val st.mem O δo ((k : ℤ) * os) : ℂ).re - (val st.mem O δo (((n - k : ℕ) : ℤ) * os) : ℂ).im,
        (val st.mem O δo ((k : ℤ) * os) : ℂ).im + (val st.mem O δo (((n - k : ℕ) : ℤ) * os) : ℂ).re⟩
      else ⟨(val st.mem O δo (((n - k : ℕ) : ℤ) * os) : ℂ).re + (val st.mem O δo ((k : ℤ) * os) : ℂ).im,
        (val st.mem O δo (((n - k : ℕ) : ℤ) * os) : ℂ).im - (val st.mem O δo ((k : ℤ) * os) : ℂ).re⟩ := by
  set X : ℕ → ℂ := fun k => val st.mem O δo ((k : ℤ) * os) with hX
  let Y : ℕ → ℂ := fun k => if k = 0 ∨ 2 * k = n then X k else if 2 * k < n then ⟨(X k).re - (X (n - k)).im, (X k).im + (X (n - k)).re⟩
    else ⟨(X (n - k)).re + (X k).im, (X (n - k)).im - (X k).re⟩
  have step : ∀ (t : ℕ) (s : State), t + 1 < n →
      (let i := t + 1
       let rop := s.mem (O + os * (i : ℤ))
       let iop := s.mem (O + δo + os * (i : ℤ))
       let rom := s.mem (O + os * ((n - i : ℕ) : ℤ))
       let iom := s.mem (O + δo + os * ((n - i : ℕ) : ℤ))
       (((s.set (O + os * (i : ℤ)) (rop - iom)).set (O + δo + os * (i : ℤ)) (iop + rom)).set
          (O + os * ((n - i : ℕ) : ℤ)) (rop + iom)).set (O + δo + os * ((n - i : ℕ) : ℤ)) (iop - rom)) =
        put O δo (((n - (t + 1) : ℕ) : ℤ) * os)
          ⟨(val s.mem O δo (((t + 1 : ℕ) : ℤ) * os) : ℂ).re + (val s.mem O δo (((n - (t + 1) : ℕ) : ℤ) * os) : ℂ).im,
           (val s.mem O δo (((t + 1 : ℕ) : ℤ) * os) : ℂ).im - (val s.mem O δo (((n - (t + 1) : ℕ) : ℤ) * os) : ℂ).re⟩
         (put O δo (((t + 1 : ℕ) : ℤ) * os)
          ⟨(val s.mem O δo (((t + 1 : ℕ) : ℤ) * os) : ℂ).re - (val s.mem O δo (((n - (t + 1) : ℕ) : ℤ) * os) : ℂ).im,
           (val s.mem O δo (((t + 1 : ℕ) : ℤ) * os) : ℂ).im + (val s.mem O δo (((n - (t + 1) : ℕ) : ℤ) * os) : ℂ).re⟩ s) := by
    intro t s ht
    simp only [put, val_c, Ptr.add_add]
    rw [mul_comm os ((t + 1 : ℕ) : ℤ), mul_comm os ((n - (t + 1) : ℕ) : ℤ)]
  have inv := forN_inv (n := (n + 1) / 2 - 1) (st := st)
    (f := fun t s =>
      let i := t + 1
      let rop := s.mem (O + os * (i : ℤ))
      let iop := s.mem (O + δo + os * (i : ℤ))
      let rom := s.mem (O + os * ((n - i : ℕ) : ℤ))
      let iom := s.mem (O + δo + os * ((n - i : ℕ) : ℤ))
      (((s.set (O + os * (i : ℤ)) (rop - iom)).set (O + δo + os * (i : ℤ)) (iop + rom)).set
          (O + os * ((n - i : ℕ) : ℤ)) (rop + iom)).set (O + δo + os * ((n - i : ℕ) : ℤ)) (iop - rom))
    (P := fun t s => Frame st s (fun q => ∃ c k : ℕ, c < 2 ∧ k < n ∧ q = O + ((c : ℤ) * δo + (k : ℤ) * os)) ∧
      ∀ k < n, (val s.mem O δo ((k : ℤ) * os) : ℂ) = if k ≤ t ∨ n - t ≤ k then Y k else X k)
    ⟨Frame.refl _ _, by
      intro k hk
      by_cases h0 : k = 0
      · subst h0; simp [Y, hX]
      · rw [if_neg (by omega)]⟩
    (by
      intro t ht s ⟨hfr, hv⟩
      rw [step t s (by omega)]
      constructor
      · refine (hfr.trans (put_frame (O := O) (δ := δo) (s := os) (n := n) (k := t + 1) (by omega) _ s) (fun _ _ h => h) (fun _ _ h => h)).trans
          (put_frame (O := O) (δ := δo) (s := os) (n := n) (k := n - (t + 1)) (by omega) _ _) (fun _ _ h => h) (fun _ _ h => h)
      · intro k hk
        rw [put_val hinj (by omega) hk, put_val hinj (by omega) hk, hv (t + 1) (by omega), hv (n - (t + 1)) (by omega), hv k hk]
        rw [if_neg (by omega : ¬ (t + 1 ≤ t ∨ n - t ≤ t + 1)), if_neg (by omega : ¬ (n - (t + 1) ≤ t ∨ n - t ≤ n - (t + 1)))]
        by_cases e1 : k = n - (t + 1)
        · rw [if_pos e1, if_pos (by omega)]
          simp only [Y]
          rw [if_neg (by omega), if_neg (by omega), e1, show n - (n - (t + 1)) = t + 1 by omega]
        · rw [if_neg e1]
          by_cases e2 : k = t + 1
          · rw [if_pos e2, if_pos (by omega)]
            simp only [Y]
            rw [if_neg (by omega), if_pos (by omega), e2]
          · rw [if_neg e2]
            by_cases e3 : k ≤ t ∨ n - t ≤ k
            · rw [if_pos e3, if_pos (by omega)]
            · rw [if_neg e3, if_neg (by omega)])
  unfold r2hcCombine
  refine ⟨inv.1, fun k hk => ?_⟩
  rw [inv.2 k hk]
  by_cases e : k ≤ (n + 1) / 2 - 1 ∨ n - ((n + 1) / 2 - 1) ≤ k
  · rw [if_pos e]
  · rw [if_neg e, if_pos (by omega)]

/-- half-complex transforms of real and imaginary part, combined, are the complex transform -/
theorem r2hc_dft (n : ℕ) (x y : ℕ → ℝ) (k : ℕ) (hk : k < n) :
    (∑ j ∈ Finset.range n, ω n ^ (j * k) * (⟨x j, y j⟩ : ℂ)) =
      let A : ℕ → ℝ := fun k => ∑ j ∈ Finset.range n, r2hcK 0 0 n j k * x j
      let B : ℕ → ℝ := fun k => ∑ j ∈ Finset.range n, r2hcK 0 0 n j k * y j
      if k = 0 ∨ 2 * k = n then ⟨A k, B k⟩
      else if 2 * k < n then ⟨A k - B (n - k), B k + A (n - k)⟩
      else ⟨A (n - k) + B k, B (n - k) - A k⟩ := by
  have hn : (n : ℝ) ≠ 0 := by have : 0 < n := by omega
                              positivity
  have key : (∑ j ∈ Finset.range n, ω n ^ (j * k) * (⟨x j, y j⟩ : ℂ)) =
      ⟨∑ j ∈ Finset.range n, (Real.cos (2 * Real.pi * j * k / n) * x j + Real.sin (2 * Real.pi * j * k / n) * y j),
       ∑ j ∈ Finset.range n, (Real.cos (2 * Real.pi * j * k / n) * y j - Real.sin (2 * Real.pi * j * k / n) * x j)⟩ := by
    apply Complex.ext
    · rw [Complex.re_sum]
      refine Finset.sum_congr rfl fun j _ => ?_
      rw [ω_pow_cos]
      push_cast
      simp only [Complex.mul_re]
      rw [show 2 * Real.pi * ((j : ℝ) * k) / n = 2 * Real.pi * j * k / n by ring]; ring
    · rw [Complex.im_sum]
      refine Finset.sum_congr rfl fun j _ => ?_
      rw [ω_pow_cos]
      push_cast
      simp only [Complex.mul_im]
      rw [show 2 * Real.pi * ((j : ℝ) * k) / n = 2 * Real.pi * j * k / n by ring]; ring
  rw [key]
  have kc : ∀ j p : ℕ, 2 * p ≤ n → r2hcK 0 0 n j p = Real.cos (2 * Real.pi * j * p / n) := by
    intro j p h; simp [r2hcK, h]
  have ks : ∀ j p : ℕ, n < 2 * p → r2hcK 0 0 n j p = - Real.sin (2 * Real.pi * j * ((n - p : ℕ) : ℝ) / n) := by
    intro j p h; simp [r2hcK, show ¬ 2 * p ≤ n by omega]
  have hcn : ∀ j : ℕ, Real.cos (2 * Real.pi * j * ((n - k : ℕ) : ℝ) / n) = Real.cos (2 * Real.pi * j * k / n) ∧
      Real.sin (2 * Real.pi * j * ((n - k : ℕ) : ℝ) / n) = - Real.sin (2 * Real.pi * j * k / n) := by
    intro j
    have e : 2 * Real.pi * j * ((n - k : ℕ) : ℝ) / n = (j : ℝ) * (2 * Real.pi) - 2 * Real.pi * j * k / n := by
      rw [Nat.cast_sub hk.le]; field_simp
    rw [e]
    exact ⟨Real.cos_nat_mul_two_pi_sub _ _, Real.sin_nat_mul_two_pi_sub _ _⟩
  dsimp only
  split
  · rename_i h
    have hs : ∀ j : ℕ, Real.sin (2 * Real.pi * j * k / n) = 0 := by
      intro j
      rcases h with h | h
      · rw [h]; simp
      · have : 2 * Real.pi * j * k / n = j * Real.pi := by rw [← h]; rw [← h] at hn; push_cast at hn ⊢; have hk0 : (k : ℝ) ≠ 0 := (fun h => hn (by rw [h, mul_zero])); field_simp
        rw [this]; exact Real.sin_nat_mul_pi j
    apply Complex.ext <;> dsimp only <;> refine Finset.sum_congr rfl fun j _ => ?_ <;> rw [kc j k (by omega), hs] <;> ring
  · rename_i h0
    split
    · rename_i h
      apply Complex.ext
      · rw [← Finset.sum_sub_distrib]
        dsimp only
        refine Finset.sum_congr rfl fun j _ => ?_
        rw [kc j k (by omega), ks j (n - k) (by omega), show n - (n - k) = k by omega]; ring
      · rw [← Finset.sum_add_distrib]
        dsimp only
        refine Finset.sum_congr rfl fun j _ => ?_
        rw [kc j k (by omega), ks j (n - k) (by omega), show n - (n - k) = k by omega]; ring
    · rename_i h
      apply Complex.ext
      · rw [← Finset.sum_add_distrib]
        dsimp only
        refine Finset.sum_congr rfl fun j _ => ?_
        rw [kc j (n - k) (by omega), ks j k (by omega), (hcn j).1, (hcn j).2]; ring
      · rw [← Finset.sum_sub_distrib]
        dsimp only
        refine Finset.sum_congr rfl fun j _ => ?_
        rw [kc j (n - k) (by omega), ks j k (by omega), (hcn j).1, (hcn j).2]; ring

theorem GOK_r2hc1 {d : Dim} {δi δo : ℤ} {ip nd : Bool} {f : Ptr → Ptr → State → State}
    (hG2 : GOK rK [(d, RKind.R2HC00)] (some [⟨2, δi, δo⟩]) 0 0 ip nd f) :
    GOK dftK (tag [d]) (some []) δi δo ip nd (fun I O st => r2hcCombine d.n d.os O (O + δo) (f I O st)) := by
  intro wf I O st hcp
  obtain ⟨hfr, hval⟩ := GOK_reim (sz := [d]) (kd := RKind.R2HC00) hG2 wf I O st hcp
  set st1 := f I O st with hst1
  have hinj : PInj δo d.os d.n := fun c c' k k' hc hc' hk hk' he => nodup2_inj wf.out hc hc' hk hk' he
  obtain ⟨hf2, hv2⟩ := combine_ok hinj O st1
  have eo : outs (locT ℂ δi δo (tag [d]) (some [])) = offs [(2, δo), (d.n, d.os)] := rfl
  refine ⟨hfr.trans hf2 (fun _ _ h => h) ?_, ?_⟩
  · rintro q _ ⟨c, k, hcc, hk, rfl⟩
    exact Or.inl ⟨_, by rw [eo, mem_offs2]; exact ⟨c, hcc, k, hk, rfl⟩, rfl⟩
  · rintro dk ⟨hd1, hd2⟩ ab hab
    obtain rfl : ab = 0 := by simpa [pairs, offs] using hab
    cases dk with
    | nil => simp [tag] at hd1
    | cons e t =>
    cases t with
    | cons => simp [tag] at hd1
    | nil =>
    obtain ⟨e, k⟩ := e
    simp only [tag, List.map_cons, List.map_nil, List.cons.injEq, and_true] at hd1
    subst hd1
    have hk := hd2 _ (List.mem_cons_self)
    simp only at hk
    have hX : ∀ k' < d.n, (val st1.mem O δo ((k' : ℤ) * d.os) : ℂ) =
        ⟨∑ j ∈ Finset.range d.n, r2hcK 0 0 d.n j k' * st.mem (I + (j : ℤ) * d.is),
         ∑ j ∈ Finset.range d.n, r2hcK 0 0 d.n j k' * st.mem (I + (δi + (j : ℤ) * d.is))⟩ := by
      intro k' hk'
      have g : ∀ c : ℕ, c < 2 → _ := fun c hc => hval [((d, RKind.R2HC00), k')] ⟨rfl, by simpa using hk'⟩ 0 (by simp [pairs, offs]) c hc
      have g0 := g 0 (by norm_num)
      have g1 := g 1 (by norm_num)
      simp [gOut, gSum, rK] at g0 g1
      rw [val_c]
      exact congrArg₂ Complex.mk g0 g1
    have := r2hc_dft d.n (fun j => st.mem (I + (j : ℤ) * d.is)) (fun j => st.mem (I + (δi + (j : ℤ) * d.is))) k hk
    have hres : (val (r2hcCombine d.n d.os O (O + δo) st1).mem O δo ((k : ℤ) * d.os) : ℂ) =
        ∑ j ∈ Finset.range d.n, ω d.n ^ (j * k) * (⟨st.mem (I + (j : ℤ) * d.is), st.mem (I + (δi + (j : ℤ) * d.is))⟩ : ℂ) := by
      rw [this, hv2 k hk, hX k hk]
      dsimp only
      split
      · rfl
      · rw [hX (d.n - k) (by rename_i h'; have := not_or.1 h'; omega)]
    simpa [gSum, gOut, dftK, val_c] using hres

theorem GOK_r2hc0 {v : List Dim} {δi δo : ℤ} {ip nd : Bool} {f : Ptr → Ptr → State → State}
    (hG2 : GOK rK [] (some (⟨2, δi, δo⟩ :: v)) 0 0 ip nd f) :
    GOK dftK (tag []) (some v) δi δo ip nd (fun I O st => r2hcCombine 1 0 O (O + δo) (f I O st)) := by
  intro wf I O st hcp
  obtain ⟨hfr, hval⟩ := GOK_reim (sz := []) (kd := RKind.R2HC00) hG2 wf I O st hcp
  have : r2hcCombine 1 0 O (O + δo) (f I O st) = f I O st := rfl
  dsimp only
  rw [this]
  refine ⟨hfr, ?_⟩
  rintro dk ⟨hd1, hd2⟩ ab hab
  obtain rfl : dk = [] := by simpa [tag] using hd1
  have g : ∀ c : ℕ, c < 2 → _ := fun c hc => hval [] ⟨rfl, by simp⟩ ab hab c hc
  have g0 := g 0 (by norm_num)
  have g1 := g 1 (by norm_num)
  simp [gOut, gSum] at g0 g1
  simp only [gOut_nil, gSum, val_c, zero_add]
  exact congrArg₂ Complex.mk g0 g1

/-- a plan for the same locations seen from another origin -/
theorem GOK_shift {sz : List (Dim × RKind)} {δi δo : ℤ} {inpl nd : Bool} {vec vec' : Tensor} {s : ℤ × ℤ} {f : Ptr → Ptr → State → State}
    (h : GOK rK sz vec' δi δo inpl nd f) (hp : pairs vec = (pairs vec').map fun v => s + v) (hs : inpl = true → s.1 = s.2)
    (hin : inpl = true → ins (locT ℝ δi δo sz vec') = outs (locT ℝ δi δo sz vec')) :
    GOK rK sz vec δi δo inpl nd (fun I O st => f (I + s.1) (O + s.2) st) := by
  have := GOK_pieces (K := rK) (sz := sz) (δi := δi) (δo := δo) (inpl := inpl) (nd := nd) (m := 1)
    (voff := fun _ => s) (vecs := fun _ => vec') (vec := vec) (ip := fun _ => inpl) (f := fun _ => f) (by rw [hp]; simp) (fun _ _ => h)
    (fun _ _ hi => ⟨hi, hs hi⟩) (fun _ _ hi => Or.inl hi) (fun hi _ _ => hin hi)
  simpa only [forN_succ, forN_zero] using this

theorem dftR2hc_sound (taste : Taste) : (dftR2hc taste).Sound := by
  apply dftSolver_sound
  intro p fl hk
  obtain ⟨⟨hn1, hn0, hap⟩, hn2, hip⟩ := kosher_dft hk
  split
  · exact good_nada
  rename_i v hv
  have hvp := kosher_vpos hk hv
  rw [hv] at hn2 hap hip
  rw [nonNegV_some] at hn2
  split
  rotate_left
  · exact good_nada
  rename_i happ
  dsimp only
  set δi := p.ii - p.ri with hδi
  set δo := p.io - p.ro with hδo
  have hsh := flipShift_cons ⟨2, δi, δo⟩ hn2
  set sh := flipShift (⟨2, δi, δo⟩ :: v) with hshd
  have e0 : (p.sz.map fun d => (d, RKind.R2HC00)).map Prod.fst = p.sz := by simp [List.map_map, Function.comp_def]
  have hposK : PosK (p.sz.map fun d => (d, RKind.R2HC00)) := by
    intro e he
    obtain ⟨d, hd, rfl⟩ := List.mem_map.1 he
    exact hn0 d hd
  -- the child's pointers coincide iff the parent's do
  have zin : (0 : ℤ) ∈ ins (some v) ∧ (0 : ℤ) ∈ outs (some v) ∧ (0 : ℤ) ∈ ins (some p.sz) ∧ (0 : ℤ) ∈ outs (some p.sz) := by
    have key : ∀ l : List Dim, Pos l → (0 : ℤ × ℤ) ∈ pairs (some l) := by
      intro l
      induction l with
      | nil => intro _; simp [pairs, offs]
      | cons d l ih => intro h; exact mem_pairs_cons.2 ⟨0, h d (by simp), 0, ih (h.sub fun e he => by simp [he]), by simp; rfl⟩
    exact ⟨mem_ins.2 ⟨0, key v hvp⟩, mem_outs.2 ⟨0, key v hvp⟩, mem_ins.2 ⟨0, key _ hn0⟩, mem_outs.2 ⟨0, key _ hn0⟩⟩
  have hsame : p.ri + sh.1 = p.ro + sh.2 ↔ p.ri = p.ro := by
    constructor
    · intro he
      by_contra hne
      have hA := hap hne
      have : ∀ c : ℕ, c < 2 → p.ri + ((c : ℤ) * δi) ≠ p.ro + ((c : ℤ) * δo) := by
        intro c hc
        refine hA _ ?_ _ ?_
        · rw [mem_ins_locT]; exact ⟨c, hc, 0, by rw [map_fst_tag]; exact zin.2.2.1, 0, zin.1, by ring⟩
        · rw [mem_outs_locT]; exact ⟨c, hc, 0, by rw [map_fst_tag]; exact zin.2.2.2, 0, zin.2.1, by ring⟩
      rw [hsh] at he
      split at he
      · exact this 1 (by norm_num) (by simpa using he)
      · exact this 0 (by norm_num) (by simpa using he)
    · intro he
      have hd : δi = δo := by rw [hδi, hδo, (hip (by simp [he])).1, he]
      rw [hsh, he, hd]
      split <;> rfl
  have hflip := pairs_flip (⟨2, δi, δo⟩ :: v)
  apply good_need
  · refine kosher_mkproblemRdft hposK (fun hne => ?_) (by rintro _ _ ⟨e, he, ht⟩; obtain ⟨a, _, rfl⟩ := List.mem_map.1 he; simp [RKind.reodft] at ht)
    have hne' : p.ri ≠ p.ro := fun h => hne (hsame.2 h)
    have hA := hap hne'
    have hloc : pairs (locT ℂ δi δo (tag p.sz) (some v)) = pairs (append (some p.sz) (some (⟨2, δi, δo⟩ :: v))) := by
      rw [locT_some, map_fst_tag, append]; exact (pairs_perm List.perm_middle).symm
    rw [e0]
    rw [flip_pairs_append hflip, ← hshd] at hloc
    intro a ha b hb
    obtain ⟨a2, ha⟩ := mem_ins.1 ha
    obtain ⟨b1, hb⟩ := mem_outs.1 hb
    rw [Ptr.add_add, Ptr.add_add]
    refine hA _ (mem_ins.2 ⟨sh.2 + a2, ?_⟩) _ (mem_outs.2 ⟨sh.1 + b1, ?_⟩)
    · rw [hloc]; exact Multiset.mem_map.2 ⟨_, ha, rfl⟩
    · rw [hloc]; exact Multiset.mem_map.2 ⟨_, hb, rfl⟩
  intro c hc
  rw [modify_default] at hc
  obtain ⟨hG, hI⟩ := sound_mkproblemRdft hposK hc
  rw [show decide (p.ri + sh.1 = p.ro + sh.2) = decide (p.ri = p.ro) by rw [decide_eq_decide]; exact hsame] at hG
  -- undo the shift
  have hsh2 : decide (p.ri = p.ro) = true → sh.1 = sh.2 := by
    intro h
    have he := of_decide_eq_true h
    have hd : δi = δo := by rw [hδi, hδo, (hip h).1, he]
    rw [hsh, hd]; split <;> rfl
  have hG2 := GOK_shift hG hflip hsh2 (fun h => hI (hsame.2 (of_decide_eq_true h)))
  apply good_ret
  refine soundDft (by simp [hv]) ?_
  rw [hv]
  rcases happ.1 with ⟨h1, h2⟩ | h0
  · -- rank 1
    obtain ⟨d, hd⟩ := List.length_eq_one_iff.1 h1
    obtain rfl : v = [] := List.length_eq_zero_iff.1 h2
    rw [hd]
    dsimp only
    rw [hd] at hG2
    exact GOK_r2hc1 hG2
  · -- rank 0
    have hd : p.sz = [] := List.length_eq_zero_iff.1 h0
    rw [hd]
    dsimp only
    rw [hd] at hG2
    have := GOK_r2hc0 hG2
    convert this using 1

end FFTW.RdftS
