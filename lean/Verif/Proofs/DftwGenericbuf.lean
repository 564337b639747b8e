import Verif.Model.DftwGenericbuf
import Verif.Proofs.CodeletsTw
import Verif.Proofs.DftwGeneric
import Verif.Proofs.Buffered
import Verif.Proofs.Puts

namespace FFTW.Spec
open FFTW.Tensor FFTW.DftS

/-- strides of a vector loop of length 1 do not matter -/
theorem TwOK_v1 {dit : Bool} {r : ℕ} {irs ors : ℤ} {m : ℕ} {ms : ℤ} {mb mc : ℕ} {δ ivs ovs : ℤ} {f : Ptr → State → State}
    (h : TwOK dit ⟨r, irs, ors, m, ms, 1, 0, 0, mb, mc⟩ δ f) : TwOK dit ⟨r, irs, ors, m, ms, 1, ivs, ovs, mb, mc⟩ δ f := by
  have e : ∀ (a b : ℤ) (l : List (ℕ × ℤ)), offs (l ++ [(1, a)]) = offs (l ++ [(1, b)]) := by
    intro a b l
    rw [offs_perm (List.perm_append_comm (l₁ := l) (l₂ := [(1, a)])), offs_perm (List.perm_append_comm (l₁ := l) (l₂ := [(1, b)]))]
    simp only [List.singleton_append, offs_one]
  have e1 : outs (TwP.locT ⟨r, irs, ors, m, ms, 1, ivs, ovs, mb, mc⟩ δ) = outs (TwP.locT ⟨r, irs, ors, m, ms, 1, 0, 0, mb, mc⟩ δ) :=
    e ovs 0 [(2, δ), (r, ors), (mc, ms)]
  have e2 : ins (TwP.locT ⟨r, irs, ors, m, ms, 1, ivs, ovs, mb, mc⟩ δ) = ins (TwP.locT ⟨r, irs, ors, m, ms, 1, 0, 0, mb, mc⟩ δ) :=
    e ivs 0 [(2, δ), (r, irs), (mc, ms)]
  unfold TwOK at h ⊢
  rw [e1, e2]
  intro h1 h2 P st hP
  obtain ⟨h3, h4⟩ := h h1 h2 P st hP
  refine ⟨h3, ?_⟩
  intro k l i hk hl hl2 hi
  obtain rfl : i = 0 := by simp only at hi; omega
  simpa using h4 k l 0 hk hl hl2 hi

end FFTW.Spec

namespace FFTW.DftS
open Tensor Spec

theorem stepLoop_eq {b me : ℕ} (hb : 0 < b) (body : ℕ → State → State) (q : ℕ) : ∀ (m : ℕ) (st : State), me = m + q * b →
    stepLoop b me body m st = forN q (fun j => body (m + j * b)) st := by
  induction q with
  | zero => intro m st h; rw [stepLoop, dif_neg (by omega)]; rfl
  | succ q ih =>
    intro m st h
    rw [Nat.succ_mul] at h
    rw [stepLoop, dif_pos ⟨hb, by omega⟩, ih (m + b) (body m st) (by omega)]
    have gen : ∀ (n : ℕ) (f : ℕ → State → State) st, forN (n + 1) f st = forN n (fun j => f (j + 1)) (f 0 st) := by
      intro n
      induction n with
      | zero => intro f st; rfl
      | succ n ih => intro f st; rw [forN_succ, ih, forN_succ]
    rw [gen]
    simp only [Nat.zero_mul, Nat.add_zero]
    refine forN_congr (fun j _ st => ?_) _
    rw [show m + b + j * b = m + (j + 1) * b by ring]

theorem rotate_ω {cexp : ℕ → ℤ → ℝ × ℝ} (hc : ExactCexp cexp) {n k : ℕ} (hk : k < n) (xr xi : ℝ) :
    (⟨(trigRotate cexp n (k : ℤ) xr xi).1, (trigRotate cexp n (k : ℤ) xr xi).2⟩ : ℂ) = ω n ^ k * ⟨xr, xi⟩ := by
  unfold trigRotate
  rw [hc n k (by omega) (by omega) (by exact_mod_cast hk), ω_pow_cos]
  dsimp only
  apply Complex.ext <;> simp [-Complex.ofReal_cos, -Complex.ofReal_sin] <;> ring

/-- the twiddle loop into the buffer -/
theorem bytwBuf_spec {cexp : ℕ → ℤ → ℝ × ℝ} (hc : ExactCexp cexp) {t : TwP} {δ : ℤ} {mb s : ℕ} (hmb : mb + s ≤ t.m) (B P : Ptr) (st : State) (hB : P.blk ≠ B.blk) :
    let st' := bytwBuf cexp t mb (mb + s) B P (P + δ) st
    st'.next = st.next ∧ (∀ q, q.blk ≠ B.blk → st'.mem q = st.mem q) ∧
      ∀ j k0 : ℕ, j < t.r → k0 < s → (val st'.mem B 1 ((j : ℤ) * 2 + (k0 : ℤ) * (2 * (batchdist t.r : ℤ))) : ℂ) =
        ω (t.r * t.m) ^ (j * (mb + k0)) * val st.mem P δ ((j : ℤ) * t.irs + ((mb + k0 : ℕ) : ℤ) * t.ms) := by
  have hst : bytwBuf cexp t mb (mb + s) B P (P + δ) st = ((List.range t.r) ×ˢ (List.range s)).foldl (fun st x =>
      put B 1 ((x.1 : ℤ) * 2 + (x.2 : ℤ) * (2 * (batchdist t.r : ℤ)))
        (ω (t.r * t.m) ^ (x.1 * (mb + x.2)) * val st.mem P δ ((x.1 : ℤ) * t.irs + ((mb + x.2 : ℕ) : ℤ) * t.ms)) st) st := by
    rw [← forN2_foldl t.r s (fun i j st => put B 1 ((i : ℤ) * 2 + (j : ℤ) * (2 * (batchdist t.r : ℤ)))
        (ω (t.r * t.m) ^ (i * (mb + j)) * val st.mem P δ ((i : ℤ) * t.irs + ((mb + j : ℕ) : ℤ) * t.ms)) st)]
    unfold bytwBuf
    rw [Nat.add_sub_cancel_left]
    refine forN_congr (fun j hj st => forN_congr (fun k0 hk st => ?_) st) st
    dsimp only
    have hlt : j * (mb + k0) < t.r * t.m := by
      calc j * (mb + k0) ≤ j * t.m := Nat.mul_le_mul_left _ (by omega)
        _ < t.r * t.m := Nat.mul_lt_mul_of_pos_right hj (by omega)
    have := rotate_ω hc hlt (st.mem (P + ((j : ℤ) * t.irs + ((mb + k0 : ℕ) : ℤ) * t.ms))) (st.mem (P + δ + ((j : ℤ) * t.irs + ((mb + k0 : ℕ) : ℤ) * t.ms)))
    rw [Ptr.add_add] at this ⊢
    rw [val_c, ← this, put, Nat.add_sub_cancel_left]
    dsimp only
    rw [show (j : ℤ) * 2 + 2 * (batchdist t.r : ℤ) * (k0 : ℤ) = (j : ℤ) * 2 + (k0 : ℤ) * (2 * (batchdist t.r : ℤ)) by ring,
      add_comm ((j : ℤ) * 2 + (k0 : ℤ) * (2 * (batchdist t.r : ℤ))) 1]
  dsimp only
  rw [hst]
  obtain ⟨h1, h2, h3⟩ := puts_spec (B := B) (δ := 1) (o := fun x : ℕ × ℕ => (x.1 : ℤ) * 2 + (x.2 : ℤ) * (2 * (batchdist t.r : ℤ)))
    (F := fun x μ => ω (t.r * t.m) ^ (x.1 * (mb + x.2)) * val μ P δ ((x.1 : ℤ) * t.irs + ((mb + x.2 : ℕ) : ℤ) * t.ms))
    (W := fun q => q.blk = B.blk) ((List.range t.r) ×ˢ (List.range s)) (fun x _ c _ => by simp) (by
      intro x _ m m' h
      congr 1
      apply Elt.dec_congr
      intro c _
      exact h _ hB) (by
      intro x hx y hy c c' hc hc' e
      rw [mem_range2] at hx hy
      generalize hb : batchdist t.r = b at *
      have hb' : t.r ≤ b := by rw [← hb, batchdist]; omega
      have e1 : (x.2 : ℤ) * (2 * (b : ℤ)) = 2 * ((b * x.2 : ℕ) : ℤ) := by push_cast; ring
      have e2 : (y.2 : ℤ) * (2 * (b : ℤ)) = 2 * ((b * y.2 : ℕ) : ℤ) := by push_cast; ring
      have h1 : c = c' := by omega
      subst h1
      have h3 : b * x.2 + x.1 = b * y.2 + y.1 := by omega
      have hv : x.2 = y.2 := by
        have e1 : (b * x.2 + x.1) / b = x.2 := by rw [Nat.mul_add_div (by omega), Nat.div_eq_of_lt (by omega), add_zero]
        have e2 : (b * y.2 + y.1) / b = y.2 := by rw [Nat.mul_add_div (by omega), Nat.div_eq_of_lt (by omega), add_zero]
        rw [← e1, ← e2, h3]
      refine ⟨rfl, Prod.ext ?_ hv⟩
      rw [hv] at h3; omega) (nodup_range2 _ _) st
  refine ⟨h1, fun q hq => h2 q fun x _ c _ e => hq (by rw [e]; simp), ?_⟩
  intro j k0 hj hk
  exact h3 (j, k0) (mem_range2.2 ⟨hj, hk⟩)

variable [CLib]

/-- one batch of columns -/
theorem TwOK_dobatchGB {cexp : ℕ → ℤ → ℝ × ℝ} (hc : ExactCexp cexp) {t : TwP} {cld : Plan} {δ : ℤ} {nd : Bool} {mb s : ℕ} (hrs : t.irs = t.ors) (hmb : mb + s ≤ t.m)
    (hG : GOK dftK [((⟨t.r, 2, 2⟩ : Dim), ())] (some [⟨s, 2 * (batchdist t.r : ℤ), 2 * (batchdist t.r : ℤ)⟩]) 1 1 true nd
      (fun I O => cld.dftApply I (I + (1 : ℤ)) O (O + (1 : ℤ)))) :
    TwOK true ⟨t.r, t.irs, t.ors, t.m, t.ms, 1, 0, 0, mb, s⟩ δ (fun P => withBuf (dobatchGB cexp t cld mb (mb + s) P (P + δ))) := by
  rw [twOK_iff (t := ⟨t.r, t.irs, t.ors, t.m, t.ms, 1, 0, 0, mb, s⟩) hrs rfl]
  intro hn P st hP
  set b := batchdist t.r with hb
  have hbr : t.r ≤ b := by rw [hb, batchdist]; omega
  have hB' : (offs [(2, (1 : ℤ)), (t.r, (2 : ℤ)), (s, 2 * (b : ℤ))]).Nodup := by
    have := bufd_nodup (nb := s) hbr (δ := 1) (Or.inl rfl) 0 0 0
    rw [mul_comm] at this
    exact this
  have hco := GOK_pairCo s t.r (2 * (b : ℤ)) t.ms 2 t.irs 1 δ true
  have oT : outs (locT ℂ 1 δ ([] : List (Dim × Unit)) (some [⟨t.r, 2, t.irs⟩, ⟨s, 2 * (b : ℤ), t.ms⟩])) = outs (TwP.locT ⟨t.r, t.irs, t.ors, t.m, t.ms, 1, 0, 0, mb, s⟩ δ) := by
    show offs [(2, δ), (t.r, t.irs), (s, t.ms)] = offs [(2, δ), (t.r, t.ors), (s, t.ms), (1, 0)]
    rw [hrs, offs_perm (l := [(2, δ), (t.r, t.ors), (s, t.ms), (1, (0 : ℤ))]) (l' := (1, (0 : ℤ)) :: [(2, δ), (t.r, t.ors), (s, t.ms)])]
    · rw [offs_one]
    · exact (List.perm_middle (a := (1, (0 : ℤ))) (l₁ := [(2, δ), (t.r, t.ors), (s, t.ms)]) (l₂ := []))
  set B : Ptr := st.fresh with hBd
  have hBb : B.blk = st.next := rfl
  have ne : ∀ {p : Ptr} {x y : ℤ}, p.blk < st.next → p + x ≠ B + y := by
    intro p x y h he
    have h2 := congrArg Ptr.blk he
    have : p.blk = B.blk := h2
    omega
  obtain ⟨n1, f1, v1⟩ := bytwBuf_spec hc (δ := δ) hmb B P st.malloc (by omega)
  set st1 := bytwBuf cexp t mb (mb + s) B P (P + δ) st.malloc with hst1
  have hn1 : st1.next = st.next + 1 := n1
  obtain ⟨fr2, v2⟩ := hG ⟨hB', fun _ => hB', fun _ => rfl, fun _ => rfl⟩ B B st1 ⟨by omega, by omega, fun _ => rfl, by simp⟩
  set st2 := cld.dftApply B (B + (1 : ℤ)) B (B + (1 : ℤ)) st1 with hst2
  have hn2 : st1.next ≤ st2.next := fr2.next
  set P' := P + t.ms * (mb : ℤ) with hP'
  have hP'b : P'.blk < st.next := hP
  obtain ⟨fr3, v3⟩ := hco ⟨by rw [oT]; exact hn, by simp, by simp, by simp⟩ B P' st2
    ⟨by rw [hBb]; omega, by omega, by simp, fun _ x _ y _ => (ne hP'b).symm⟩
  have epp : P + δ + t.ms * (mb : ℤ) = P' + δ := by rw [hP', Ptr.add_add, Ptr.add_add, add_comm]
  have hfun : (withBuf (dobatchGB cexp t cld mb (mb + s) P (P + δ)) st).mem =
      (Copy.cpy2dPairCo B (B + (1 : ℤ)) P' (P' + δ) s (2 * (b : ℤ)) t.ms t.r 2 t.irs st2).mem := by
    rw [withBuf_mem]
    unfold dobatchGB
    dsimp only
    rw [Nat.add_sub_cancel_left, epp]
  refine ⟨⟨le_refl _, ?_⟩, ?_⟩
  · intro q hq hw
    rw [hfun]
    have hqB : q.blk ≠ B.blk := by omega
    rw [fr3.mem q (by omega), fr2.mem q (by omega), f1 q hqB]
    · rfl
    · rintro (⟨x, _, e⟩ | ⟨_, x, _, e⟩)
      · rw [e] at hqB; exact hqB rfl
      · rw [e] at hqB; exact hqB rfl
    · rintro (⟨x, hx, rfl⟩ | ⟨e, _⟩)
      · rw [oT] at hx
        exact hw ⟨x, hx, by rw [hP', Ptr.add_add, mul_comm]⟩
      · simp at e
  · intro k l i hk hl hl2 hi
    obtain rfl : i = 0 := by simp only at hi; omega
    simp only at hk hl hl2
    simp only [mul_zero, add_zero, Nat.cast_zero, zero_mul]
    rw [hfun]
    obtain ⟨a, rfl⟩ := Nat.exists_eq_add_of_le hl
    have ha : a < s := by omega
    have w3 := v3 [] ⟨rfl, by simp⟩ ((k : ℤ) * 2 + (a : ℤ) * (2 * (b : ℤ)), (k : ℤ) * t.irs + (a : ℤ) * t.ms)
      (mem_pairs_cons.2 ⟨k, hk, _, mem_pairs_cons.2 ⟨a, ha, 0, by simp [pairs, offs], rfl⟩, by simp⟩)
    simp only [gOut_nil, gSum, zero_add] at w3
    rw [hP', val_shift, ← hP'] at w3
    rw [show ((k : ℤ) * t.ors + ((mb + a : ℕ) : ℤ) * t.ms) = t.ms * (mb : ℤ) + ((k : ℤ) * t.irs + (a : ℤ) * t.ms) by rw [hrs]; push_cast; ring, w3]
    have w2 := v2 [((⟨t.r, 2, 2⟩, ()), k)] ⟨rfl, by simpa using hk⟩ ((a : ℤ) * (2 * (b : ℤ)), (a : ℤ) * (2 * (b : ℤ)))
      (mem_pairs_cons.2 ⟨a, ha, 0, by simp [pairs, offs], by simp⟩)
    rw [gOut_cons, gOut_nil] at w2
    simp only [gSum, dftK, add_zero] at w2
    rw [w2, twStep, if_pos rfl]
    apply Finset.sum_congr rfl
    intro j hj
    congr 1
    rw [v1 j a (Finset.mem_range.1 hj) ha, hrs]
    rfl

theorem dftwGenericbuf_sound {cexp : ℕ → ℤ → ℝ × ℝ} (hc : ExactCexp cexp) (batchsz : ℕ) (taste : TwP → Flags → Bool) :
    Inferior.Sound true (dftwGenericbuf cexp batchsz taste) := by
  intro t rio iio fl hr0 _ h1 h2 h3 h4 h5 hmb _
  unfold dftwGenericbuf
  split
  rotate_left
  · intro f hf; simp at hf
  rename_i happ
  obtain ⟨hv, hrs, hge, hmod, -, -, -⟩ := happ
  dsimp only
  apply Mk.Good.need
  · apply kosher_mkproblemDft
    · intro e he; simp only [List.mem_singleton] at he; subst he; simp
    · rw [nonNegV_some]
      intro e he
      simp only [List.mem_singleton] at he
      subst he
      simp only; constructor <;> positivity
    · intro e he; simp only [List.mem_singleton] at he; subst he; exact hr0
    · intro h; exact absurd rfl h
  · intro f hf; simp at hf
  intro c hcld
  rw [modify_default] at hcld
  obtain ⟨hG, _⟩ := sound_mkproblemDft hcld
  have ed : ∀ p : Ptr, (p + (1 : ℤ) - p : ℤ) = 1 := by intro p; show p.off + 1 - p.off = 1; ring
  rw [ed, decide_eq_true rfl] at hG
  intro f hf
  obtain rfl := Option.some.inj hf
  obtain ⟨r, irs, ors, m, ms, v, ivs, ovs, mb, mc⟩ := t
  simp only at *
  subst hv hrs
  generalize iio - rio = δ
  apply TwOK_v1
  by_cases hb : batchsz = 0
  · subst hb
    rw [Nat.mod_zero] at hmod
    subst hmod
    intro _ _ P st _
    beta_reduce
    rw [show ∀ body, stepLoop 0 (mb + 0) body mb st = st from fun body => by rw [stepLoop, dif_neg (by omega)]]
    exact ⟨Frame.refl _ _, fun k l i _ h1 h2 => absurd h2 (by simp only at *; omega)⟩
  have hb0 : 0 < batchsz := by omega
  have hq : mc / batchsz * batchsz = mc := Nat.div_mul_cancel (Nat.dvd_of_mod_eq_zero hmod)
  have key := TwOK_cols (dit := true) (r := r) (rs := irs) (m := m) (ms := ms) (mb := mb) (mc := mc) (N := mc / batchsz) (δ := δ)
    (a := fun j => mb + j * batchsz) (s := fun _ => batchsz)
    (f := fun j P => withBuf (dobatchGB cexp ⟨r, irs, irs, m, ms, 1, ivs, ovs, mb, mc⟩ c (mb + j * batchsz) (mb + j * batchsz + batchsz) P (P + δ)))
    (by simp) (fun j _ => by ring) (by simp only [hq]) (by
      intro j hj
      have : (j + 1) * batchsz ≤ mc := by rw [← hq]; exact Nat.mul_le_mul_right _ hj
      rw [Nat.succ_mul] at this
      exact TwOK_dobatchGB (t := ⟨r, irs, irs, m, ms, 1, ivs, ovs, mb, mc⟩) hc rfl (by simp only; omega) hG)
  convert key using 2
  funext st
  rw [stepLoop_eq hb0 _ (mc / batchsz) _ _ (by rw [hq])]

end FFTW.DftS
