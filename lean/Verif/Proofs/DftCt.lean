import Verif.Model.DftCt
import Verif.Spec.Cexp
import Verif.Proofs.DftSolvers
import Verif.Proofs.DftGeneric
import Verif.Proofs.DftMath
import Verif.Proofs.Index
import Verif.Proofs.Primes4

namespace FFTW
open Tensor Spec

/-! ### the Cooley-Tukey identities -/

namespace Spec

theorem sum_range_mul {M : Type*} [AddCommMonoid M] (a b : ℕ) (f : ℕ → M) :
    ∑ j ∈ Finset.range (a * b), f j = ∑ q ∈ Finset.range a, ∑ i ∈ Finset.range b, f (q * b + i) := by
  induction a with
  | zero => simp
  | succ a ih => rw [Finset.sum_range_succ, ← ih, Nat.succ_mul, Finset.sum_range_add]

theorem ct_dit (r m : ℕ) (hr : r ≠ 0) (hm : m ≠ 0) (k l : ℕ) (x : ℕ → ℂ) :
    twStep true r m l k (fun j => ∑ q ∈ Finset.range m, ω m ^ (q * l) * x (q * r + j)) =
      ∑ j ∈ Finset.range (r * m), ω (r * m) ^ (j * (k * m + l)) * x j := by
  rw [twStep, if_pos rfl, mul_comm r m, sum_range_mul, Finset.sum_comm]
  apply Finset.sum_congr rfl
  intro j _
  rw [Finset.mul_sum, Finset.mul_sum]
  apply Finset.sum_congr rfl
  intro q _
  have h1 : ω (m * r) ^ ((q * r + j) * (k * m + l)) = ω r ^ (j * k) * (ω (m * r) ^ (j * l) * ω m ^ (q * l)) := by
    rw [show (q * r + j) * (k * m + l) = (m * r) * (q * k) + (r * (q * l) + (m * (j * k) + j * l)) by ring, pow_add, pow_mul,
      ω_pow_self _ (by positivity), one_pow, one_mul, pow_add, pow_add, ω_mul_pow m r _ hm, mul_comm m r, ω_mul_pow r m _ hr]
    ring
  rw [h1]; ring

theorem ct_dif (r m : ℕ) (hr : r ≠ 0) (hm : m ≠ 0) (q k : ℕ) (x : ℕ → ℂ) :
    ∑ l ∈ Finset.range m, ω m ^ (l * q) * twStep false r m l k (fun j => x (j * m + l)) =
      ∑ j ∈ Finset.range (r * m), ω (r * m) ^ (j * (q * r + k)) * x j := by
  rw [sum_range_mul, Finset.sum_comm]
  apply Finset.sum_congr rfl
  intro l _
  rw [twStep, if_neg (by simp), Finset.mul_sum, Finset.mul_sum]
  apply Finset.sum_congr rfl
  intro j _
  have h1 : ω (r * m) ^ ((j * m + l) * (q * r + k)) = ω r ^ (j * k) * (ω (r * m) ^ (k * l) * ω m ^ (l * q)) := by
    rw [show (j * m + l) * (q * r + k) = (r * m) * (j * q) + (r * (l * q) + (m * (j * k) + k * l)) by ring, pow_add, pow_mul,
      ω_pow_self _ (by positivity), one_pow, one_mul, pow_add, pow_add, ω_mul_pow r m _ hr, mul_comm r m, ω_mul_pow m r _ hm]
    ring
  rw [h1]; ring

end Spec

namespace DftS

/-- the two shapes of twiddle steps that dft/ct.c asks for: truly in place, or with rows and vectors exchanged -/
def _root_.FFTW.TwP.Shape (t : TwP) : Prop := (t.irs = t.ors ∧ t.ivs = t.ovs) ∨ (t.r = t.v ∧ t.irs = t.ovs ∧ t.ors = t.ivs)

/-- contract of a maker of twiddle steps -/
def Inferior.Sound (dit : Bool) (mk : Inferior) : Prop :=
  ∀ (t : TwP) (rio iio : Ptr) (fl : Flags), 0 < t.r → 0 < t.m → 0 ≤ t.irs → 0 ≤ t.ors → 0 ≤ t.ms → 0 ≤ t.ivs → 0 ≤ t.ovs → t.mb + t.mc ≤ t.m → t.Shape →
    (mk t rio iio fl).Good fl fun r => ∀ f, r = some f → TwOK dit t (iio - rio) fun P => f P (P + (iio - rio))

end DftS

namespace Spec

theorem outs_four (a b c d : Dim) : outs (some [a, b, c, d]) = offs [(a.n, a.os), (b.n, b.os), (c.n, c.os), (d.n, d.os)] := rfl
theorem ins_four (a b c d : Dim) : ins (some [a, b, c, d]) = offs [(a.n, a.is), (b.n, b.is), (c.n, c.is), (d.n, d.is)] := rfl

/-- decimation in time -/
theorem GOK_dit {r m : ℕ} {is os : ℤ} {vd : Dim} {δi δo : ℤ} {inpl nd : Bool} {f1 : Ptr → Ptr → State → State} {f2 : Ptr → State → State}
    (hr : r ≠ 0) (hm : m ≠ 0)
    (h1 : GOK dftK [(⟨m, (r : ℤ) * is, os⟩, ())] (some [⟨r, is, (m : ℤ) * os⟩, vd]) δi δo inpl nd f1)
    (h2 : TwOK true ⟨r, (m : ℤ) * os, (m : ℤ) * os, m, os, vd.n, vd.os, vd.os, 0, m⟩ δo f2) :
    GOK dftK [(⟨r * m, is, os⟩, ())] (some [vd]) δi δo inpl nd (fun I O st => f2 O (f1 I O st)) := by
  intro wf I O st hc
  obtain ⟨v, ivs, ovs⟩ := vd
  have eT : locT ℂ δi δo [((⟨r * m, is, os⟩ : Dim), ())] (some [⟨v, ivs, ovs⟩]) = some [⟨2, δi, δo⟩, ⟨r * m, is, os⟩, ⟨v, ivs, ovs⟩] := rfl
  have eC : locT ℂ δi δo [((⟨m, (r : ℤ) * is, os⟩ : Dim), ())] (some [⟨r, is, (m : ℤ) * os⟩, ⟨v, ivs, ovs⟩]) =
    some [⟨2, δi, δo⟩, ⟨m, (r : ℤ) * is, os⟩, ⟨r, is, (m : ℤ) * os⟩, ⟨v, ivs, ovs⟩] := rfl
  have ei : ins (some [⟨2, δi, δo⟩, ⟨m, (r : ℤ) * is, os⟩, ⟨r, is, (m : ℤ) * os⟩, ⟨v, ivs, ovs⟩]) = ins (some [⟨2, δi, δo⟩, ⟨r * m, is, os⟩, ⟨v, ivs, ovs⟩]) := by
    have := offs_merge m r is [(v, ivs)]
    rw [nsmul_eq_mul] at this
    simp only [ins_four]
    rw [offs_cons, this, mul_comm m r]
    rfl
  have eo : outs (some [⟨2, δi, δo⟩, ⟨m, (r : ℤ) * is, os⟩, ⟨r, is, (m : ℤ) * os⟩, ⟨v, ivs, ovs⟩]) = outs (some [⟨2, δi, δo⟩, ⟨r * m, is, os⟩, ⟨v, ivs, ovs⟩]) := by
    have := offs_merge r m os [(v, ovs)]
    rw [nsmul_eq_mul] at this
    simp only [outs_four]
    rw [offs_cons, offs_perm (List.Perm.swap _ _ _), this]
    rfl
  have ew : outs (TwP.locT ⟨r, (m : ℤ) * os, (m : ℤ) * os, m, os, v, ovs, ovs, 0, m⟩ δo) = outs (some [⟨2, δi, δo⟩, ⟨r * m, is, os⟩, ⟨v, ivs, ovs⟩]) := by
    rw [TwP.locT, outs_four, ← eo, outs_four]
    exact offs_perm ((List.Perm.swap _ _ _).cons _)
  rw [eT] at hc ⊢
  have wo := wf.out
  have wi := wf.inp
  have we := wf.eq
  rw [eT] at wo wi we
  have wf1 : WF ℂ [((⟨m, (r : ℤ) * is, os⟩ : Dim), ())] (some [⟨r, is, (m : ℤ) * os⟩, ⟨v, ivs, ovs⟩]) δi δo inpl nd :=
    ⟨by rw [eC, eo]; exact wo, by rw [eC, ei]; exact wi, by rw [eC, ei, eo]; exact we, wf.delta⟩
  obtain ⟨fr1, v1⟩ := h1 wf1 I O st (by
    rw [eC]
    exact ⟨hc.blkI, hc.blkO, hc.same, fun h a ha b hb => hc.disj h a (ei ▸ ha) b (eo ▸ hb)⟩)
  obtain ⟨fr2, v2⟩ := h2 (by rw [ew]; exact wo) rfl O (f1 I O st) (lt_of_lt_of_le hc.blkO fr1.next)
  refine ⟨fr1.trans fr2 ?_ ?_, ?_⟩
  · intro q _ hq
    rw [eC] at hq
    rcases hq with ⟨b, hb, rfl⟩ | ⟨hn, a, ha, rfl⟩
    · exact Or.inl ⟨b, eo ▸ hb, rfl⟩
    · exact Or.inr ⟨hn, a, ei ▸ ha, rfl⟩
  · rintro q _ ⟨b, hb, rfl⟩
    exact Or.inl ⟨b, ew ▸ hb, by simp⟩
  · rintro dk ⟨hd1, hd2⟩ ab hab
    obtain ⟨iv, hiv, q, hq, rfl⟩ := mem_pairs_cons.1 hab
    obtain rfl : q = 0 := by simpa [pairs, offs] using hq
    cases dk with
    | nil => simp at hd1
    | cons e t =>
      cases t with
      | cons => simp at hd1
      | nil =>
        obtain ⟨e, K⟩ := e
        simp only [List.map_cons, List.map_nil, List.cons.injEq, and_true] at hd1
        subst hd1
        have hK := hd2 _ (List.mem_cons_self)
        simp only at hK
        have hk : K / m < r := Nat.div_lt_of_lt_mul (by rw [mul_comm]; exact hK)
        have hl : K % m < m := Nat.mod_lt _ (by omega)
        have hKe : K = K / m * m + K % m := by rw [mul_comm]; exact (Nat.div_add_mod K m).symm
        have hv2 := v2 (K / m) (K % m) iv hk (by simp) (by simpa using hl) hiv
        simp only at hv2
        have ev1 : ∀ j : ℕ, j < r → (val (f1 I O st).mem O δo ((j : ℤ) * ((m : ℤ) * os) + ((K % m : ℕ) : ℤ) * os + (iv : ℤ) * ovs) : ℂ) =
            ∑ q ∈ Finset.range m, ω m ^ (q * (K % m)) * (val st.mem I δi (((q * r + j : ℕ) : ℤ) * is + (iv : ℤ) * ivs) : ℂ) := by
          intro j hj
          have := v1 [((⟨m, (r : ℤ) * is, os⟩, ()), K % m)] ⟨rfl, by simpa using hl⟩
            ((j : ℤ) * is + iv * ivs, (j : ℤ) * ((m : ℤ) * os) + iv * ovs) (by
              refine mem_pairs_cons.2 ⟨j, hj, (iv * ivs, iv * ovs), mem_pairs_cons.2 ⟨iv, hiv, 0, by simp [pairs, offs], by simp⟩, by simp⟩)
          rw [gOut_cons, gOut_nil] at this
          simp only [gSum, dftK] at this
          rw [show (j : ℤ) * ((m : ℤ) * os) + ((K % m : ℕ) : ℤ) * os + (iv : ℤ) * ovs = ((K % m : ℕ) : ℤ) * os + 0 + ((j : ℤ) * ((m : ℤ) * os) + iv * ovs) by ring, this]
          apply Finset.sum_congr rfl
          intro q _
          congr 2
          push_cast; ring
        have hstep : twStep true r m (K % m) (K / m) (fun j => (val (f1 I O st).mem O δo ((j : ℤ) * ((m : ℤ) * os) + ((K % m : ℕ) : ℤ) * os + (iv : ℤ) * ovs) : ℂ)) =
            twStep true r m (K % m) (K / m) (fun j => ∑ q ∈ Finset.range m, ω m ^ (q * (K % m)) * (val st.mem I δi (((q * r + j : ℕ) : ℤ) * is + (iv : ℤ) * ivs) : ℂ)) := by
          rw [twStep, twStep, if_pos rfl, if_pos rfl]
          apply Finset.sum_congr rfl
          intro j hj
          rw [ev1 j (Finset.mem_range.1 hj)]
        rw [hstep] at hv2
        have hct := ct_dit r m hr hm (K / m) (K % m) (fun t => (val st.mem I δi ((t : ℤ) * is + (iv : ℤ) * ivs) : ℂ))
        rw [hct, ← hKe] at hv2
        rw [gOut_cons, gOut_nil]
        simp only [gSum, dftK]
        rw [show (K : ℤ) * os + 0 + ((iv : ℤ) * ovs + (0 : ℤ × ℤ).2) = ((K / m : ℕ) : ℤ) * ((m : ℤ) * os) + ((K % m : ℕ) : ℤ) * os + (iv : ℤ) * ovs by
          conv_lhs => rw [hKe]
          push_cast; simp; ring, hv2]
        apply Finset.sum_congr rfl
        intro j _
        congr 2
        simp

/-- decimation in frequency -/
theorem GOK_dif {r m : ℕ} {is os : ℤ} {v : ℕ} {ivs ovs cors covs : ℤ} {δi δo : ℤ} {inpl nd : Bool} {f1 : Ptr → State → State} {f2 : Ptr → Ptr → State → State}
    (hr : r ≠ 0) (hm : m ≠ 0) (hnd : inpl = true ∨ nd = false)
    (h1 : TwOK false ⟨r, (m : ℤ) * is, cors, m, is, v, ivs, covs, 0, m⟩ δi f1)
    (hs : ins (TwP.locT ⟨r, (m : ℤ) * is, cors, m, is, v, ivs, covs, 0, m⟩ δi) = outs (TwP.locT ⟨r, (m : ℤ) * is, cors, m, is, v, ivs, covs, 0, m⟩ δi))
    (h2 : GOK dftK [(⟨m, is, (r : ℤ) * os⟩, ())] (some [⟨r, cors, os⟩, ⟨v, covs, ovs⟩]) δi δo inpl nd f2) :
    GOK dftK [(⟨r * m, is, os⟩, ())] (some [⟨v, ivs, ovs⟩]) δi δo inpl nd (fun I O st => f2 I O (f1 I st)) := by
  intro wf I O st hc
  have eT : locT ℂ δi δo [((⟨r * m, is, os⟩ : Dim), ())] (some [⟨v, ivs, ovs⟩]) = some [⟨2, δi, δo⟩, ⟨r * m, is, os⟩, ⟨v, ivs, ovs⟩] := rfl
  have eC : locT ℂ δi δo [((⟨m, is, (r : ℤ) * os⟩ : Dim), ())] (some [⟨r, cors, os⟩, ⟨v, covs, ovs⟩]) =
    some [⟨2, δi, δo⟩, ⟨m, is, (r : ℤ) * os⟩, ⟨r, cors, os⟩, ⟨v, covs, ovs⟩] := rfl
  have ewi : ins (TwP.locT ⟨r, (m : ℤ) * is, cors, m, is, v, ivs, covs, 0, m⟩ δi) = ins (some [⟨2, δi, δo⟩, ⟨r * m, is, os⟩, ⟨v, ivs, ovs⟩]) := by
    have := offs_merge r m is [(v, ivs)]
    rw [nsmul_eq_mul] at this
    rw [TwP.locT, ins_four, offs_cons, this]
    rfl
  have ei : ins (some [⟨2, δi, δo⟩, ⟨m, is, (r : ℤ) * os⟩, ⟨r, cors, os⟩, ⟨v, covs, ovs⟩]) = ins (some [⟨2, δi, δo⟩, ⟨r * m, is, os⟩, ⟨v, ivs, ovs⟩]) := by
    rw [← ewi, hs, TwP.locT, outs_four, ins_four]
    exact offs_perm ((List.Perm.swap _ _ _).cons _)
  have eo : outs (some [⟨2, δi, δo⟩, ⟨m, is, (r : ℤ) * os⟩, ⟨r, cors, os⟩, ⟨v, covs, ovs⟩]) = outs (some [⟨2, δi, δo⟩, ⟨r * m, is, os⟩, ⟨v, ivs, ovs⟩]) := by
    have := offs_merge m r os [(v, ovs)]
    rw [nsmul_eq_mul] at this
    simp only [outs_four]
    rw [offs_cons, this, mul_comm m r]
    rfl
  rw [eT] at hc ⊢
  have wo := wf.out
  have wi := wf.inp
  have we := wf.eq
  rw [eT] at wo wi we
  have hin : (ins (some [⟨2, δi, δo⟩, ⟨r * m, is, os⟩, ⟨v, ivs, ovs⟩])).Nodup := by
    rcases hnd with h | h
    · rw [we h]; exact wo
    · exact wi h
  obtain ⟨fr1, v1⟩ := h1 (by rw [← hs, ewi]; exact hin) hs I st hc.blkI
  have wf2 : WF ℂ [((⟨m, is, (r : ℤ) * os⟩ : Dim), ())] (some [⟨r, cors, os⟩, ⟨v, covs, ovs⟩]) δi δo inpl nd :=
    ⟨by rw [eC, eo]; exact wo, by rw [eC, ei]; exact wi, by rw [eC, ei, eo]; exact we, wf.delta⟩
  obtain ⟨fr2, v2⟩ := h2 wf2 I O (f1 I st) (by
    rw [eC]
    exact ⟨lt_of_lt_of_le hc.blkI fr1.next, lt_of_lt_of_le hc.blkO fr1.next, hc.same, fun h a ha b hb => hc.disj h a (ei ▸ ha) b (eo ▸ hb)⟩)
  refine ⟨fr1.trans fr2 ?_ ?_, ?_⟩
  · rintro q _ ⟨b, hb, rfl⟩
    rw [← hs, ewi] at hb
    rcases hnd with h | h
    · rw [we h] at hb
      exact Or.inl ⟨b, hb, by simp [hc.same h]⟩
    · exact Or.inr ⟨h, b, hb, by simp⟩
  · intro q _ hq
    rw [eC] at hq
    rcases hq with ⟨b, hb, rfl⟩ | ⟨hn, a, ha, rfl⟩
    · exact Or.inl ⟨b, eo ▸ hb, rfl⟩
    · exact Or.inr ⟨hn, a, ei ▸ ha, rfl⟩
  · rintro dk ⟨hd1, hd2⟩ ab hab
    obtain ⟨iv, hiv, q, hq, rfl⟩ := mem_pairs_cons.1 hab
    obtain rfl : q = 0 := by simpa [pairs, offs] using hq
    cases dk with
    | nil => simp at hd1
    | cons e t =>
      cases t with
      | cons => simp at hd1
      | nil =>
        obtain ⟨e, K⟩ := e
        simp only [List.map_cons, List.map_nil, List.cons.injEq, and_true] at hd1
        subst hd1
        have hK := hd2 _ (List.mem_cons_self)
        simp only at hK
        have hq : K / r < m := Nat.div_lt_of_lt_mul hK
        have hk : K % r < r := Nat.mod_lt _ (by omega)
        have hKe : K = K / r * r + K % r := by rw [mul_comm]; exact (Nat.div_add_mod K r).symm
        have hv2 := v2 [((⟨m, is, (r : ℤ) * os⟩, ()), K / r)] ⟨rfl, by simpa using hq⟩
            (((K % r : ℕ) : ℤ) * cors + iv * covs, ((K % r : ℕ) : ℤ) * os + iv * ovs) (by
              refine mem_pairs_cons.2 ⟨K % r, hk, (iv * covs, iv * ovs), mem_pairs_cons.2 ⟨iv, hiv, 0, by simp [pairs, offs], by simp⟩, by simp⟩)
        rw [gOut_cons, gOut_nil] at hv2
        simp only [gSum, dftK] at hv2
        have hct := ct_dif r m hr hm (K / r) (K % r) (fun t => (val st.mem I δi ((t : ℤ) * is + (iv : ℤ) * ivs) : ℂ))
        rw [← hKe] at hct
        rw [gOut_cons, gOut_nil]
        simp only [gSum, dftK]
        rw [show (K : ℤ) * os + 0 + ((iv : ℤ) * ovs + (0 : ℤ × ℤ).2) = ((K / r : ℕ) : ℤ) * ((r : ℤ) * os) + 0 + (((K % r : ℕ) : ℤ) * os + (iv : ℤ) * ovs) by
          conv_lhs => rw [hKe]
          push_cast; simp; ring, hv2]
        rw [show (∑ j ∈ Finset.range (r * m), ω (r * m) ^ (j * K) * (val st.mem I δi ((j : ℤ) * is + 0 + ((iv : ℤ) * ivs + (0 : ℤ × ℤ).1)) : ℂ)) =
          ∑ j ∈ Finset.range (r * m), ω (r * m) ^ (j * K) * (val st.mem I δi ((j : ℤ) * is + (iv : ℤ) * ivs) : ℂ) by
            apply Finset.sum_congr rfl; intro j _; congr 2; simp, ← hct]
        apply Finset.sum_congr rfl
        intro l hl
        have hl := Finset.mem_range.1 hl
        congr 1
        have hv1 := v1 (K % r) l iv hk (by simp) (by simpa using hl) hiv
        simp only at hv1
        rw [show (l : ℤ) * is + 0 + (((K % r : ℕ) : ℤ) * cors + iv * covs) = ((K % r : ℕ) : ℤ) * cors + (l : ℤ) * is + iv * covs by ring, hv1]
        congr 1
        funext j
        congr 1
        push_cast; ring

end Spec

namespace DftS
variable [CLib]

theorem good_needW {fl : Flags} {Q : Plan → Prop} {R : WPlan → Prop} {w : Mk (Option WPlan)} {k : WPlan → Mk (Option Plan)}
    (hw : w.Good fl fun r => ∀ f, r = some f → R f) (hk : ∀ c, R c → (k c).Good fl fun r => ∀ pl, r = some pl → Q pl) :
    (Mk.needW w k).Good fl fun r => ∀ pl, r = some pl → Q pl := by
  apply Mk.Good.bind hw
  intro r hr
  cases r with
  | none => exact good_nada
  | some c => exact hk c (hr c rfl)

theorem tornk1_pairs {vec : List Dim} {vd : Dim} (h : tornk1 vec = some vd) : pairs (some vec) = pairs (some [vd]) := by
  match vec, h with
  | [], h =>
    obtain rfl := Option.some.inj h
    show offs _ = offs _
    simp only [List.map_nil, List.map_cons]
    rw [offs_one]
  | [d], h => obtain rfl := Option.some.inj h; rfl

theorem tornk1_nonneg {vec : List Dim} {vd : Dim} (h : tornk1 vec = some vd) (hn : NonNeg vec) : 0 ≤ vd.is ∧ 0 ≤ vd.os := by
  match vec, h with
  | [], h => obtain rfl := Option.some.inj h; simp
  | [d], h => obtain rfl := Option.some.inj h; exact hn d (by simp)

theorem ctWith_sound {fm : Flags → FMod} (hfm : ∀ fl : Flags, (fl.modify (fm fl)).nd = fl.nd) (rdx : ℤ) (dec : Dec) (mkcldw : Inferior) (taste : Taste)
    (hw : Inferior.Sound (decide (dec = .dit)) mkcldw) : (ctWith fm rdx dec mkcldw taste).Sound := by
  apply dftSolver_sound
  intro p fl hk
  obtain ⟨⟨hn1, hn0, hap⟩, hn2, hip⟩ := kosher_dft hk
  split
  rotate_left
  · exact good_nada
  rename_i d vec hsz hvec
  split
  rotate_left
  · exact good_nada
  rename_i vd rr htor hrr
  split
  rotate_left
  · exact good_nada
  rename_i happ
  obtain ⟨hdec, hr1, hrn, _⟩ := happ
  have hdvd : rr ∣ (d.n : ℤ) := by
    rcases Primes.chooseRadix_dvd hrr with h | h
    · omega
    · exact h
  obtain ⟨r, rfl⟩ : ∃ r : ℕ, rr = (r : ℤ) := ⟨rr.toNat, by omega⟩
  simp only [Int.toNat_natCast]
  have hdvd' : r ∣ d.n := by exact_mod_cast hdvd
  obtain ⟨m, hm⟩ := hdvd'
  have hr0 : r ≠ 0 := by omega
  have hm0 : m ≠ 0 := by rintro rfl; simp at hm; omega
  have hdm : d.n / r = m := by rw [hm]; exact Nat.mul_div_cancel_left _ (by omega)
  rw [hdm]
  rw [hsz] at hn1
  rw [hvec, nonNegV_some] at hn2
  obtain ⟨hd1, hd2⟩ := hn1 d (by simp)
  obtain ⟨hv1, hv2⟩ := tornk1_nonneg htor hn2
  have hde : d = ⟨r * m, d.is, d.os⟩ := by rw [← hm]
  have hm' : (0 : ℤ) ≤ m := by omega
  have hr' : (0 : ℤ) ≤ r := by omega
  have final : ∀ g : Ptr → Ptr → Ptr → Ptr → State → State,
      GOK dftK [(⟨r * m, d.is, d.os⟩, ())] (some [vd]) (p.ii - p.ri) (p.io - p.ro) (decide (p.ri = p.ro)) fl.nd
        (fun I O => g I (I + (p.ii - p.ri)) O (O + (p.io - p.ro))) → FFTW.Sound fl.nd (.dft p) (.dft g) := by
    intro g h
    refine soundDft (by simp [hvec]) ?_
    rw [hsz, hvec]
    rw [← hde] at h
    exact h.vec_congr (tornk1_pairs htor)
  by_cases hdit : dec = .dit
  · subst hdit
    simp only
    apply good_needW (hw _ _ _ _ (Nat.pos_of_ne_zero hr0) (Nat.pos_of_ne_zero hm0) (by positivity) (by positivity) hd2 hv2 hv2 (by simp) (Or.inl ⟨rfl, rfl⟩))
    intro cldw hcw
    apply good_need
    · apply kosher_mkproblemDft
      · intro e he; simp only [List.mem_singleton] at he; subst he; exact ⟨by positivity, hd2⟩
      · rw [nonNegV_some]
        intro e he
        simp only [List.mem_cons, List.not_mem_nil, or_false] at he
        rcases he with rfl | rfl
        · exact ⟨hd1, by positivity⟩
        · exact ⟨hv1, hv2⟩
      · intro e he; simp only [List.mem_singleton] at he; subst he; exact Nat.pos_of_ne_zero hm0
      · intro hne
        have hA := hap hne
        rw [hsz, hvec, hde] at hA
        have hA : Apart (some [⟨2, p.ii - p.ri, p.io - p.ro⟩, ⟨r * m, d.is, d.os⟩, vd]) p.ri p.ro :=
          FFTW.Apart.of_pairs hA (by
            show pairs (locT ℂ (p.ii - p.ri) (p.io - p.ro) (tag [⟨r * m, d.is, d.os⟩]) (some [vd])) = _
            rw [pairs_locT, pairs_locT, ← tornk1_pairs htor])
        refine hA.mono (fun a ha => ?_) (fun a ha => ?_)
        · have := offs_merge m r d.is [(vd.n, vd.is)]
          rw [nsmul_eq_mul] at this
          change a ∈ offs [(2, p.ii - p.ri), (m, (r : ℤ) * d.is), (r, d.is), (vd.n, vd.is)] at ha
          rw [offs_cons, this, mul_comm m r] at ha
          exact ha
        · have := offs_merge r m d.os [(vd.n, vd.os)]
          rw [nsmul_eq_mul] at this
          change a ∈ offs [(2, p.io - p.ro), (m, d.os), (r, (m : ℤ) * d.os), (vd.n, vd.os)] at ha
          rw [offs_cons, offs_perm (List.Perm.swap _ _ _), this] at ha
          exact ha
    intro c hc
    rw [hfm] at hc
    obtain ⟨hG, _⟩ := sound_mkproblemDft hc
    apply good_ret
    apply final
    exact GOK_dit hr0 hm0 hG hcw
  · have hb : decide (dec = .dit) = false := by simp [hdit]
    rw [hb] at hw
    have hnd : decide (p.ri = p.ro) = true ∨ fl.nd = false := by
      rcases hdec with h | h | h
      · exact absurd h hdit
      · left; simp [h]
      · right; exact h
    split
    · exact absurd rfl hdit
    have hcors : 0 ≤ (if decide (dec = .difT) = true then vd.is else (m : ℤ) * d.is) := by split <;> positivity
    have hcovs : 0 ≤ (if decide (dec = .difT) = true then (m : ℤ) * d.is else vd.is) := by split <;> positivity
    generalize hco : (if decide (dec = .difT) = true then vd.is else (m : ℤ) * d.is) = cors at *
    generalize hcv : (if decide (dec = .difT) = true then (m : ℤ) * d.is else vd.is) = covs at *
    split
    · exact good_nada
    rename_i hcond
    have hshape : TwP.Shape ⟨r, (m : ℤ) * d.is, cors, m, d.is, vd.n, vd.is, covs, 0, m⟩ := by
      by_cases ht : dec = .difT
      · rw [if_pos (by simp [ht])] at hco hcv
        have hc : r = vd.n := by
          by_contra hne
          apply hcond
          refine ⟨by simp [ht], ?_⟩
          intro h; exact hne h.1
        exact Or.inr ⟨hc, hcv, hco.symm⟩
      · rw [if_neg (by simp [ht])] at hco hcv
        exact Or.inl ⟨hco, hcv⟩
    have hs : ins (TwP.locT ⟨r, (m : ℤ) * d.is, cors, m, d.is, vd.n, vd.is, covs, 0, m⟩ (p.ii - p.ri)) =
        outs (TwP.locT ⟨r, (m : ℤ) * d.is, cors, m, d.is, vd.n, vd.is, covs, 0, m⟩ (p.ii - p.ri)) := by
      by_cases ht : dec = .difT
      · rw [if_pos (by simp [ht])] at hco hcv
        have hc : r = vd.n := by
          by_contra hne
          apply hcond
          refine ⟨by simp [ht], ?_⟩
          intro h; exact hne h.1
        rw [TwP.locT, ins_four, outs_four]
        simp only
        rw [← hco, ← hcv, ← hc]
        apply offs_perm
        apply List.Perm.cons
        exact (List.reverse_perm [(r, (m : ℤ) * d.is), (m, d.is), (r, vd.is)]).symm
      · rw [if_neg (by simp [ht])] at hco hcv
        rw [TwP.locT, ins_four, outs_four]
        simp only
        rw [← hco, ← hcv]
    apply good_needW (hw _ _ _ _ (Nat.pos_of_ne_zero hr0) (Nat.pos_of_ne_zero hm0) (by positivity) hcors hd1 hv1 hcovs (by simp) hshape)
    intro cldw hcw
    apply good_need
    · apply kosher_mkproblemDft
      · intro e he; simp only [List.mem_singleton] at he; subst he; exact ⟨hd1, by positivity⟩
      · rw [nonNegV_some]
        intro e he
        simp only [List.mem_cons, List.not_mem_nil, or_false] at he
        rcases he with rfl | rfl
        · exact ⟨hcors, hd2⟩
        · exact ⟨hcovs, hv2⟩
      · intro e he; simp only [List.mem_singleton] at he; subst he; exact Nat.pos_of_ne_zero hm0
      · intro hne
        have ht : dec ≠ .difT := by
          intro ht; apply hcond
          refine ⟨by simp [ht], ?_⟩
          intro h; exact hne h.2.2.1
        rw [if_neg (by simp [ht])] at hco hcv
        subst hco hcv
        have hA := hap hne
        rw [hsz, hvec, hde] at hA
        have hA : Apart (some [⟨2, p.ii - p.ri, p.io - p.ro⟩, ⟨r * m, d.is, d.os⟩, vd]) p.ri p.ro :=
          FFTW.Apart.of_pairs hA (by
            show pairs (locT ℂ (p.ii - p.ri) (p.io - p.ro) (tag [⟨r * m, d.is, d.os⟩]) (some [vd])) = _
            rw [pairs_locT, pairs_locT, ← tornk1_pairs htor])
        refine hA.mono (fun a ha => ?_) (fun a ha => ?_)
        · have := offs_merge r m d.is [(vd.n, vd.is)]
          rw [nsmul_eq_mul] at this
          change a ∈ offs [(2, p.ii - p.ri), (m, d.is), (r, (m : ℤ) * d.is), (vd.n, vd.is)] at ha
          rw [offs_cons, offs_perm (List.Perm.swap _ _ _), this] at ha
          exact ha
        · have := offs_merge m r d.os [(vd.n, vd.os)]
          rw [nsmul_eq_mul] at this
          change a ∈ offs [(2, p.io - p.ro), (m, (r : ℤ) * d.os), (r, d.os), (vd.n, vd.os)] at ha
          rw [offs_cons, this, mul_comm m r] at ha
          exact ha
    intro c hc
    rw [hfm] at hc
    obtain ⟨hG, _⟩ := sound_mkproblemDft hc
    apply good_ret
    apply final
    exact GOK_dif hr0 hm0 hnd hcw hs hG

theorem ct_sound (rdx : ℤ) (dec : Dec) (mkcldw : Inferior) (taste : Taste) (hw : Inferior.Sound (decide (dec = .dit)) mkcldw) :
    (ct rdx dec mkcldw taste).Sound := ctWith_sound (fun fl => by rw [modify_default]) rdx dec mkcldw taste hw

end DftS
end FFTW
