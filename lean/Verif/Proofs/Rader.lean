import Verif.Model.Rader
import Verif.Proofs.RaderMath
import Verif.Proofs.Buffered
import Verif.Proofs.Puts
import Verif.Proofs.Primes3

namespace FFTW.Spec
open FFTW.Tensor FFTW.DftS FFTW.Api

theorem nodup_of_PInj {δ s : ℤ} {n : ℕ} (h : PInj δ s n) (l : List (ℕ × ℤ)) (hl : l = [] ∨ l = [(1, 0)]) : (offs ([(2, δ), (n, s)] ++ l)).Nodup := by
  have e : offs ([(2, δ), (n, s)] ++ l) = offs [(2, δ), (n, s)] := by
    rcases hl with rfl | rfl
    · rfl
    · rw [offs_perm (List.perm_append_comm (l₁ := [(2, δ), (n, s)]) (l₂ := [(1, (0 : ℤ))]))]
      simp only [List.singleton_append, offs_one]
  rw [e, offs_boxes]
  refine (nodup_boxes _).map_on ?_
  intro x hx y hy he
  simp only [List.map_cons, List.map_nil, mem_boxes] at hx hy he
  obtain ⟨c, x1, hc, hx1, rfl⟩ := box_cons.1 hx
  obtain ⟨k, x2, hk, hx2, rfl⟩ := box_cons.1 hx1
  obtain ⟨c', y1, hc', hy1, rfl⟩ := box_cons.1 hy
  obtain ⟨k', y2, hk', hy2, rfl⟩ := box_cons.1 hy1
  obtain rfl : x2 = [] := List.length_eq_zero_iff.1 (by rw [box_length hx2]; rfl)
  obtain rfl : y2 = [] := List.length_eq_zero_iff.1 (by rw [box_length hy2]; rfl)
  simp only [dot_cons, dot_nil] at he
  obtain ⟨rfl, rfl⟩ := h c c' k k' hc hc' hk hk' (by linarith)
  rfl

/-- what the contract of a plan for one transform says, in plain terms -/
theorem _root_.FFTW.Spec.GOK.rank1 {n : ℕ} {is os δi δo : ℤ} {inpl nd : Bool} {f : Ptr → Ptr → State → State}
    (h : GOK dftK [((⟨n, is, os⟩ : Dim), ())] (some [⟨1, 0, 0⟩]) δi δo inpl nd f)
    (ho : PInj δo os n) (hi : nd = false → PInj δi is n) (he : inpl = true → is = os ∧ δi = δo) {I O : Ptr} {st : State} (bI : I.blk < st.next) (bO : O.blk < st.next)
    (hs : inpl = true → I = O) (hd : inpl = false → ∀ a b : ℤ, I + a ≠ O + b) :
    st.next ≤ (f I O st).next ∧
    (∀ q, q.blk < st.next → (∀ c k : ℕ, c < 2 → k < n → q ≠ O + ((c : ℤ) * δo + (k : ℤ) * os)) →
      (∀ c k : ℕ, c < 2 → k < n → q ≠ I + ((c : ℤ) * δi + (k : ℤ) * is)) → (f I O st).mem q = st.mem q) ∧
    ∀ k < n, (val (f I O st).mem O δo ((k : ℤ) * os) : ℂ) = ∑ j ∈ Finset.range n, ω n ^ (j * k) * (val st.mem I δi ((j : ℤ) * is) : ℂ) := by
  have eo : outs (locT ℂ δi δo [((⟨n, is, os⟩ : Dim), ())] (some [⟨1, 0, 0⟩])) = offs ([(2, δo), (n, os)] ++ [(1, 0)]) := rfl
  have ei : ins (locT ℂ δi δo [((⟨n, is, os⟩ : Dim), ())] (some [⟨1, 0, 0⟩])) = offs ([(2, δi), (n, is)] ++ [(1, 0)]) := rfl
  have mo : ∀ (δ s x : ℤ), x ∈ offs ([(2, δ), (n, s)] ++ [(1, 0)]) → ∃ c k : ℕ, c < 2 ∧ k < n ∧ x = (c : ℤ) * δ + (k : ℤ) * s := by
    intro δ s x hx
    rw [offs_perm (List.perm_append_comm (l₁ := [(2, δ), (n, s)]) (l₂ := [(1, (0 : ℤ))]))] at hx
    simp only [List.singleton_append, offs_one] at hx
    obtain ⟨c, hc, k, hk, e⟩ := mem_offs2.1 hx
    exact ⟨c, k, hc, hk, e⟩
  obtain ⟨h1, h2⟩ := h ⟨by rw [eo]; exact nodup_of_PInj ho _ (by simp), fun hn => by rw [ei]; exact nodup_of_PInj (hi hn) _ (by simp),
    fun hp => by rw [ei, eo, (he hp).1, (he hp).2], fun hp => (he hp).2⟩ I O st ⟨bI, bO, hs, fun hp a _ b _ => hd hp a b⟩
  refine ⟨h1.next, fun q hq h3 h4 => h1.mem q hq ?_, ?_⟩
  · rintro (⟨x, hx, e⟩ | ⟨_, x, hx, e⟩)
    · rw [eo] at hx
      obtain ⟨c, k, hc, hk, rfl⟩ := mo _ _ _ hx
      exact h3 c k hc hk e
    · rw [ei] at hx
      obtain ⟨c, k, hc, hk, rfl⟩ := mo _ _ _ hx
      exact h4 c k hc hk e
  · intro k hk
    have := h2 [((⟨n, is, os⟩, ()), k)] ⟨rfl, by simpa using hk⟩ 0 (mem_pairs_cons.2 ⟨0, by simp, 0, by simp [pairs, offs], by simp; rfl⟩)
    rw [gOut_cons, gOut_nil] at this
    simp only [gSum, dftK, add_zero, Prod.fst_zero, Prod.snd_zero] at this
    exact this

end FFTW.Spec

namespace FFTW.DftS
open Tensor Spec Finset

theorem permLoop_eq {g n : ℕ} (hn : 1 < n) (hnI : (n : ℤ) ≤ INT_MAX) (hg : g < n) (cnt : ℕ) (body : ℕ → ℤ → State → State) (st : State) :
    permLoop g n cnt body st = forN cnt (fun k => body k ((g ^ k % n : ℕ) : ℤ)) st := by
  have key : iter cnt (fun k (s : ℤ × State) => ((Primes.MULMOD s.1 g n).getD 0, body k s.1 s.2)) (1, st) =
      (((g ^ cnt % n : ℕ) : ℤ), forN cnt (fun k => body k ((g ^ k % n : ℕ) : ℤ)) st) := by
    induction cnt with
    | zero => simp [iter, forN, Nat.mod_eq_of_lt hn]
    | succ c ih =>
      have hm : g ^ c % n < n := Nat.mod_lt _ (by omega)
      simp only [iter, ih, forN]
      rw [Primes.MULMOD_some hnI (by positivity) (by exact_mod_cast hm) (by positivity) (by exact_mod_cast hg)]
      simp only [Option.getD_some]
      congr 1
      rw [pow_succ, Nat.mul_mod (g ^ c) g n, Nat.mod_eq_of_lt hg]
      push_cast
      rfl
  rw [permLoop, key]

theorem pow_mod_inj {n : ℕ} [Fact n.Prime] {g : ℕ} (ho : orderOf (g : ZMod n) = n - 1) {i j : ℕ} (hi : i < n - 1) (hj : j < n - 1) (e : g ^ i % n = g ^ j % n) : i = j := by
  have e : (g : ZMod n) ^ i = (g : ZMod n) ^ j := by
    have : ((g ^ i : ℕ) : ZMod n) = ((g ^ j : ℕ) : ZMod n) := (ZMod.natCast_eq_natCast_iff' _ _ _).2 e
    exact_mod_cast this
  exact pow_injOn_Iio_orderOf (by rw [ho]; exact hi) (by rw [ho]; exact hj) e

theorem pow_mod_surj {n : ℕ} [Fact n.Prime] {g : ℕ} (h0 : 0 < g) (h1 : g < n) (ho : orderOf (g : ZMod n) = n - 1) {k : ℕ} (hk : 0 < k) (hkn : k < n) :
    ∃ i < n - 1, g ^ i % n = k := by
  have := Genfft.sum_gen h0 h1 ho (fun j => if j = k then 1 else 0)
  rw [sum_ite_eq' (Ico 1 n) k (fun _ => 1), if_pos (mem_Ico.2 ⟨hk, hkn⟩)] at this
  by_contra hc
  push Not at hc
  rw [sum_eq_zero (fun i hi => if_neg (hc i (mem_range.1 hi)))] at this
  omega

theorem pow_mod_pos {n : ℕ} [Fact n.Prime] {g : ℕ} (h0 : 0 < g) (h1 : g < n) (i : ℕ) : 0 < g ^ i % n := by
  rcases Nat.eq_zero_or_pos (g ^ i % n) with h | h
  · have hp : n.Prime := Fact.out
    have := hp.dvd_of_dvd_pow (Nat.dvd_of_mod_eq_zero h)
    exact absurd (Nat.le_of_dvd h0 this) (by omega)
  · exact h

theorem bufPInj (N : ℕ) : PInj 1 2 N := by
  intro c c' k k' hc hc' _ _ e
  omega

/-- the table of `mkomega` -/
theorem mkomega_ok {cexp : ℕ → ℤ → ℝ × ℝ} (hc : ExactCexp cexp) {n h : ℕ} (hn : 1 < n) (hnI : (n : ℤ) ≤ INT_MAX) (hh : h < n) {cld : Plan} {nd : Bool}
    (hG : GOK dftK [((⟨n - 1, 2, 2⟩ : Dim), ())] (some [⟨1, 0, 0⟩]) 1 1 true nd (fun I O => cld.dftApply I (I + (1 : ℤ)) O (O + (1 : ℤ)))) {q : ℕ} (hq : q < n - 1) :
    (⟨mkomega cexp n h cld (2 * q), mkomega cexp n h cld (2 * q + 1)⟩ : ℂ) =
      ∑ i ∈ range (n - 1), ω (n - 1) ^ (i * q) * (ω n ^ (h ^ i % n) / ((n - 1 : ℕ) : ℂ)) := by
  set B : Ptr := ⟨0, 0⟩ with hB
  set st0 : State := { mem := fun _ => 0, next := 1 } with hst0
  obtain ⟨st1, hst1⟩ : ∃ st1, st1 = (List.range (n - 1)).foldl (fun st (i : ℕ) => put B 1 (2 * (i : ℤ)) (ω n ^ (h ^ i % n) / ((n - 1 : ℕ) : ℂ)) st) st0 := ⟨_, rfl⟩
  have hperm : permLoop h n (n - 1) (fun i gpower st =>
      let w := cexp n gpower
      (st.set (B + (2 * (i : ℤ))) (w.1 / ((n : ℝ) - 1))).set (B + (2 * (i : ℤ) + 1)) (-1 * w.2 / ((n : ℝ) - 1))) st0 = st1 := by
    rw [permLoop_eq hn hnI hh, forN_foldl, hst1]
    congr 1
    funext st i
    have hm : h ^ i % n < n := Nat.mod_lt _ (by omega)
    have e : (ω n ^ (h ^ i % n) / ((n - 1 : ℕ) : ℂ)) = ⟨Real.cos (2 * Real.pi * ((h ^ i % n : ℕ) : ℝ) / n) / ((n : ℝ) - 1), -1 * Real.sin (2 * Real.pi * ((h ^ i % n : ℕ) : ℝ) / n) / ((n : ℝ) - 1)⟩ := by
      rw [ω_pow_cos]
      have : ((n - 1 : ℕ) : ℂ) = ((((n : ℝ) - 1 : ℝ)) : ℂ) := by rw [Nat.cast_sub (by omega)]; push_cast; rfl
      rw [this]
      apply Complex.ext
      · rw [Complex.div_ofReal_re]
      · rw [Complex.div_ofReal_im]; ring
    rw [e, put, hc n _ (by omega) (by omega) (by exact_mod_cast hm)]
    simp only [add_comm (1 : ℤ)]
    norm_cast
  obtain ⟨p1, p2, p3⟩ := puts_spec (B := B) (δ := 1) (o := fun i : ℕ => 2 * (i : ℤ)) (F := fun i _ => ω n ^ (h ^ i % n) / ((n - 1 : ℕ) : ℂ)) (W := fun _ => True)
    (List.range (n - 1)) (by simp) (by simp) (by intro x _ y _ c c' hc hc' e; omega) List.nodup_range st0
  rw [← hst1] at p1 p2 p3
  obtain ⟨-, -, v⟩ := hG.rank1 (bufPInj _) (fun _ => bufPInj _) (fun _ => ⟨rfl, rfl⟩) (I := B) (O := B) (st := st1) (by rw [p1]; simp [hB, hst0]) (by rw [p1]; simp [hB, hst0]) (fun _ => rfl) (by simp)
  have := v q hq
  rw [val_c] at this
  have e1 : mkomega cexp n h cld (2 * q) = (cld.dftApply B (B + (1 : ℤ)) B (B + (1 : ℤ)) st1).mem (B + (q : ℤ) * 2) := by
    unfold mkomega; dsimp only
    rw [← hB, ← hst0, hperm]; congr 2; push_cast; ring
  have e2 : mkomega cexp n h cld (2 * q + 1) = (cld.dftApply B (B + (1 : ℤ)) B (B + (1 : ℤ)) st1).mem (B + (1 + (q : ℤ) * 2)) := by
    unfold mkomega; dsimp only
    rw [← hB, ← hst0, hperm]; congr 2; push_cast; ring
  rw [e1, e2, this]
  refine sum_congr rfl fun i hi => ?_
  rw [mul_comm (i : ℤ) 2, p3 i (List.mem_range.2 (mem_range.1 hi))]


theorem put_eq (O : Ptr) (δ o : ℤ) (a b : ℝ) (st : State) : (st.set (O + o) a).set (O + δ + o) b = put O δ o ⟨a, b⟩ st := by
  rw [put, Ptr.add_add]

theorem raderApply_ok {d : Dim} [Fact d.n.Prime] (hnI : (d.n : ℤ) ≤ INT_MAX) {g h : ℕ} (hg0 : 0 < g) (hgn : g < d.n)
    (ho : orderOf (g : ZMod d.n) = d.n - 1) (hh0 : 0 < h) (hhn : h < d.n) (hgh : (g : ZMod d.n) * h = 1) {omega : ℕ → ℝ}
    (hW : ∀ q < d.n - 1, (⟨omega (2 * q), omega (2 * q + 1)⟩ : ℂ) = ∑ i ∈ range (d.n - 1), ω (d.n - 1) ^ (i * q) * (ω d.n ^ (h ^ i % d.n) / ((d.n - 1 : ℕ) : ℂ)))
    {δi δo : ℤ} {cld1 cld2 : Plan} {nd1 nd2 inpl nd : Bool}
    (h1 : GOK dftK [((⟨d.n - 1, 2, d.os⟩ : Dim), ())] (some [⟨1, 0, 0⟩]) 1 δo false nd1 (fun I O => cld1.dftApply I (I + (1 : ℤ)) O (O + δo)))
    (h2 : GOK dftK [((⟨d.n - 1, d.os, 2⟩ : Dim), ())] (some [⟨1, 0, 0⟩]) δo 1 false nd2 (fun I O => cld2.dftApply I (I + δo) O (O + (1 : ℤ)))) :
    GOK dftK [(d, ())] (some []) δi δo inpl nd (fun I O => raderApply omega cld1 cld2 d.n g h d.is d.os I (I + δi) O (O + δo)) := by
  apply GOK_rank1
  intro hout _ I O st hI hO _ _
  have hp : d.n.Prime := Fact.out
  have hn2 := hp.two_le
  have hho : orderOf (h : ZMod d.n) = d.n - 1 := order_inv ho hgh
  have hout : PInj δo d.os d.n := hout
  obtain ⟨n, is, os⟩ := d
  simp only at *
  set B : Ptr := st.fresh with hB
  have hBb : B.blk = st.next := rfl
  have ne : ∀ {p : Ptr} {x y : ℤ}, p.blk < st.next → p + x ≠ B + y := by
    intro p x y h he
    have h2 := congrArg Ptr.blk he
    have : p.blk = B.blk := h2
    omega
  set x : ℕ → ℂ := fun m => val st.mem I δi ((m : ℤ) * is) with hx
  have hx0 : x 0 = ⟨st.mem I, st.mem (I + δi)⟩ := by
    rw [hx]; simp only [val_c]; simp [Ptr.add_zero]
  have hout' : PInj δo os (n - 1) := fun c c' k k' hc hc' hk hk' e => hout c c' k k' hc hc' (by omega) (by omega) e
  -- the permuted input
  obtain ⟨st1, hst1⟩ : ∃ st1, st1 = (List.range (n - 1)).foldl (fun st (k : ℕ) => put B 1 (2 * (k : ℤ)) (val st.mem I δi (((g ^ k % n : ℕ) : ℤ) * is)) st) st.malloc := ⟨_, rfl⟩
  have e1 : permLoop g n (n - 1) (fun k gpower st =>
      let rA := st.mem (I + gpower * is)
      let iA := st.mem (I + δi + gpower * is)
      (st.set (B + (2 * (k : ℤ))) rA).set (B + (2 * (k : ℤ) + 1)) iA) st.malloc = st1 := by
    rw [permLoop_eq (by omega) hnI hgn, forN_foldl, hst1]
    congr 1
    funext st k
    dsimp only
    rw [put, val_c, Ptr.add_add I, add_comm (1 : ℤ)]
  obtain ⟨a1, a2, a3⟩ := puts_spec (B := B) (δ := 1) (o := fun k : ℕ => 2 * (k : ℤ)) (F := fun k μ => val μ I δi (((g ^ k % n : ℕ) : ℤ) * is)) (W := fun q => q.blk = B.blk)
    (List.range (n - 1)) (by simp) (by
      intro k _ m m' hm
      apply Elt.dec_congr
      intro c _
      exact hm _ (by rw [Ptr.add_blk]; omega)) (by intro x _ y _ c c' hc hc' e; omega) List.nodup_range st.malloc
  rw [← hst1] at a1 a2 a3
  have a1 : st1.next = st.next + 1 := a1
  have a3 : ∀ k < n - 1, (val st1.mem B 1 ((k : ℤ) * 2) : ℂ) = x (g ^ k % n) := by
    intro k hk
    rw [mul_comm, a3 k (List.mem_range.2 hk)]
    rfl
  have a2 : ∀ q, q.blk < st.next → st1.mem q = st.mem q := by
    intro q hq
    rw [a2 q]
    · rfl
    · intro k _ c _ e
      have h2 := congrArg Ptr.blk e
      have : q.blk = B.blk := h2
      omega
  -- first transform
  obtain ⟨b1, b2, b3⟩ := h1.rank1 hout' (fun _ => bufPInj _) (by simp) (I := B) (O := O + os) (st := st1) (by omega) (by rw [Ptr.add_blk]; omega) (by simp)
    (fun _ a b e => ne (p := O) (x := os + b) (y := a) hO (by rw [← Ptr.add_add, ← e]))
  set Y : ℕ → ℂ := fun q => ∑ k ∈ range (n - 1), ω (n - 1) ^ (k * q) * x (g ^ k % n) with hY
  obtain ⟨st2, hst2⟩ : ∃ st2, st2 = cld1.dftApply B (B + (1 : ℤ)) (O + os) (O + os + δo) st1 := ⟨_, rfl⟩
  rw [← hst2] at b1 b2 b3
  have b3 : ∀ q < n - 1, (val st2.mem O δo (((q + 1 : ℕ) : ℤ) * os) : ℂ) = Y q := by
    intro q hq
    have := b3 q hq
    rw [val_shift] at this
    rw [show ((q + 1 : ℕ) : ℤ) * os = os + (q : ℤ) * os by push_cast; ring, this]
    refine sum_congr rfl fun k hk => ?_
    rw [a3 k (mem_range.1 hk)]
  have b2 : ∀ q, q.blk < st.next → (∀ c k : ℕ, c < 2 → k < n → q ≠ O + ((c : ℤ) * δo + (k : ℤ) * os)) → st2.mem q = st.mem q := by
    intro q hq hq2
    rw [b2 q (by omega) ?_ ?_, a2 q hq]
    · intro c k hc hk e
      apply hq2 c (k + 1) hc (by omega)
      rw [e, Ptr.add_add]; congr 1; push_cast; ring
    · intro c k hc hk e
      have h2 := congrArg Ptr.blk e
      have : q.blk = B.blk := h2
      omega
  -- the DC component
  obtain ⟨st3, hst3⟩ : ∃ st3, st3 = put O δo ((0 : ℕ) * os) (x 0 + val st2.mem O δo ((1 : ℕ) * os)) st2 := ⟨_, rfl⟩
  have hi2 : O + δo + os ≠ O := by
    rw [Ptr.add_add]
    intro e
    have e' := (Ptr.add_zero O).symm ▸ e
    have : O + (δo + os) = O + (0 : ℤ) := by rw [Ptr.add_zero]; exact e
    rw [ptr_add_right_inj] at this
    have := (hout 1 0 1 0 (by omega) (by omega) (by omega) (by omega) (by push_cast; linarith)).1
    omega
  have e3 : ((st2.set O (st.mem I + st2.mem (O + os))).set (O + δo) (st.mem (I + δi) + (st2.set O (st.mem I + st2.mem (O + os))).mem (O + δo + os))) = st3 := by
    rw [State.set_mem_ne _ hi2, hst3, put, hx0, val_c]
    simp [Ptr.add_zero, Ptr.add_add]
  -- multiplication by omega
  set W : ℕ → ℂ := fun q => ⟨omega (2 * q), omega (2 * q + 1)⟩ with hWd
  obtain ⟨st4, hst4⟩ : ∃ st4, st4 = upds O δo ((List.range (n - 1)).flatMap fun k => [(((k + 1 : ℕ) : ℤ) * os, fun z => (starRingEnd ℂ) (W k * z))]) st3 := ⟨_, rfl⟩
  have e4 : forN (n - 1) (fun k st =>
      let rW := omega (2 * k)
      let iW := omega (2 * k + 1)
      let o : ℤ := ((k : ℤ) + 1) * os
      let rB := st.mem (O + o)
      let iB := st.mem (O + δo + o)
      (st.set (O + o) (rW * rB - iW * iB)).set (O + δo + o) (-(rW * iB + iW * rB))) st3 = st4 := by
    rw [hst4, ← forN_upds]
    refine forN_congr (fun k _ st => ?_) _
    dsimp only [upds, List.foldl, upd1]
    rw [put_eq, val_c, Ptr.add_add]
    push_cast
    congr 1
  set S : ℤ → Prop := fun o => ∃ k : ℕ, k < n ∧ o = (k : ℤ) * os with hS
  have hSI : SInj δo S := by
    rintro c c' o o' hc hc' ⟨k, hk, rfl⟩ ⟨k', hk', rfl⟩ e
    obtain ⟨rfl, rfl⟩ := hout c c' k k' hc hc' hk hk' e
    exact ⟨rfl, rfl⟩
  have hosI : ∀ {k k' : ℕ}, k < n → k' < n → (k : ℤ) * os = (k' : ℤ) * os → k = k' := by
    intro k k' hk hk' e
    exact (hout 0 0 k k' (by omega) (by omega) hk hk' (by rw [e])).2
  set Wr : Ptr → Prop := fun q => ∃ c k : ℕ, c < 2 ∧ k < n ∧ q = O + ((c : ℤ) * δo + (k : ℤ) * os) with hWr
  obtain ⟨c1, c2, c3, c4⟩ := upds_spec hSI (P := O) (W := Wr) (by rintro o ⟨k, hk, rfl⟩ c hc; exact ⟨c, k, hc, hk, rfl⟩)
    ((List.range (n - 1)).flatMap fun k => [(((k + 1 : ℕ) : ℤ) * os, fun z => (starRingEnd ℂ) (W k * z))]) (by
      intro e he
      simp only [List.mem_flatMap, List.mem_range, List.mem_singleton] at he
      obtain ⟨k, hk, rfl⟩ := he
      exact ⟨k + 1, by omega, rfl⟩) (by
      rw [List.map_flatMap]
      simp only [List.map_cons, List.map_nil]
      rw [← List.map_eq_flatMap]
      refine List.nodup_range.map_on ?_
      intro k hk k' hk' e
      rw [List.mem_range] at hk hk'
      have := hosI (k := k + 1) (k' := k' + 1) (by omega) (by omega) e
      omega) st3
  rw [← hst4] at c1 c2 c3 c4
  have v3 : ∀ k < n, (val st3.mem O δo ((k : ℤ) * os) : ℂ) = if k = 0 then x 0 + Y 0 else val st2.mem O δo ((k : ℤ) * os) := by
    intro k hk
    have := put_val hout (O := O) (k := 0) (k' := k) (by omega) hk (x 0 + val st2.mem O δo ((1 : ℕ) * os)) st2
    rw [hst3, this, b3 0 (by omega)]
  have d4 : ∀ q < n - 1, (val st4.mem O δo (((q + 1 : ℕ) : ℤ) * os) : ℂ) = (starRingEnd ℂ) (W q * Y q) := by
    intro q hq
    have := c4 (((q + 1 : ℕ) : ℤ) * os, fun z => (starRingEnd ℂ) (W q * z)) (by
      simp only [List.mem_flatMap, List.mem_range, List.mem_singleton]
      exact ⟨q, hq, rfl⟩)
    simp only at this
    rw [this, v3 (q + 1) (by omega), if_neg (by omega), b3 q hq]
  have d40 : (val st4.mem O δo (((0 : ℕ) : ℤ) * os) : ℂ) = x 0 + Y 0 := by
    rw [c3 _ ⟨0, by omega, rfl⟩, v3 0 (by omega), if_pos rfl]
    intro hm
    simp only [List.map_flatMap, List.map_cons, List.map_nil, List.mem_flatMap, List.mem_range, List.mem_singleton] at hm
    obtain ⟨k, hk, e⟩ := hm
    have := hosI (by omega) (by omega) e
    omega
  have hn3 : st3.next = st2.next := by rw [hst3]; rfl
  have d4f : ∀ q, q.blk < st.next → ¬ Wr q → st4.mem q = st.mem q := by
    intro q hq hw
    rw [c1.mem q (by omega) hw, hst3, put_mem_other, b2 q hq]
    · intro c k hc hk e; exact hw ⟨c, k, hc, hk, e⟩
    · intro e; exact hw ⟨0, 0, by omega, by omega, by rw [e]; simp⟩
    · intro e; exact hw ⟨1, 0, by omega, by omega, by rw [e]; simp⟩
  -- adding input[0]
  obtain ⟨st5, hst5⟩ : ∃ st5, st5 = put O δo ((1 : ℕ) * os) (val st4.mem O δo ((1 : ℕ) * os) + (starRingEnd ℂ) (x 0)) st4 := ⟨_, rfl⟩
  have hi5 : O + δo + os ≠ O + os := by
    rw [Ptr.add_add]
    intro e
    rw [ptr_add_right_inj] at e
    have := (hout 1 0 1 1 (by omega) (by omega) (by omega) (by omega) (by push_cast; linarith)).1
    omega
  have e5 : ((st4.set (O + os) (st4.mem (O + os) + st.mem I)).set (O + δo + os) ((st4.set (O + os) (st4.mem (O + os) + st.mem I)).mem (O + δo + os) - st.mem (I + δi))) = st5 := by
    rw [State.set_mem_ne _ hi5, hst5, put_eq, hx0, val_c]
    simp [Ptr.add_add]
    congr 1
  have d5 : ∀ k < n, (val st5.mem O δo ((k : ℤ) * os) : ℂ) = if k = 1 then (starRingEnd ℂ) (W 0 * Y 0 + x 0) else val st4.mem O δo ((k : ℤ) * os) := by
    intro k hk
    have := put_val hout (O := O) (k := 1) (k' := k) (by omega) hk (val st4.mem O δo ((1 : ℕ) * os) + (starRingEnd ℂ) (x 0)) st4
    have e := d4 0 (by omega)
    rw [Nat.zero_add] at e
    rw [hst5, this, e, map_add]
  have hn5 : st5.next = st4.next := by rw [hst5]; rfl
  have d5f : ∀ q, q.blk < st.next → ¬ Wr q → st5.mem q = st.mem q := by
    intro q hq hw
    rw [hst5, put_mem_other, d4f q hq hw]
    · intro e; exact hw ⟨0, 1, by omega, by omega, by rw [e]; simp⟩
    · intro e; exact hw ⟨1, 1, by omega, by omega, by rw [e]; simp⟩
  -- second transform
  obtain ⟨f1, f2, f3⟩ := h2.rank1 (bufPInj _) (fun _ => hout') (by simp) (I := O + os) (O := B) (st := st5) (by rw [Ptr.add_blk]; omega) (by omega) (by simp)
    (fun _ a b e => ne (p := O) (x := os + a) (y := b) hO (by rw [← Ptr.add_add, e]))
  obtain ⟨st6, hst6⟩ : ∃ st6, st6 = cld2.dftApply (O + os) (O + os + δo) B (B + (1 : ℤ)) st5 := ⟨_, rfl⟩
  rw [← hst6] at f1 f2 f3
  have f3 : ∀ j < n - 1, (starRingEnd ℂ) (val st6.mem B 1 ((j : ℤ) * 2)) = ∑ m ∈ range n, ω n ^ (m * (h ^ j % n)) * x m := by
    intro j hj
    rw [← rader_math hg0 hgn ho hgh x hj, f3 j hj]
    congr 1
    refine sum_congr rfl fun q hq => ?_
    rw [mem_range] at hq
    rw [← hW q hq]
    congr 1
    rw [val_shift, show os + (q : ℤ) * os = ((q + 1 : ℕ) : ℤ) * os by push_cast; ring, d5 (q + 1) (by omega)]
    by_cases hq0 : q = 0
    · subst hq0
      rw [if_pos rfl, if_pos rfl]
    · rw [if_neg (by omega), if_neg hq0, add_zero, d4 q hq]
  have f2' : ∀ q, q.blk < st.next → (∀ c k : ℕ, c < 2 → k < n - 1 → q ≠ O + ((c : ℤ) * δo + ((k + 1 : ℕ) : ℤ) * os)) → st6.mem q = st5.mem q := by
    intro q hq hq2
    rw [f2 q (by omega)]
    · intro c k hc hk e
      have h2 := congrArg Ptr.blk e
      have : q.blk = B.blk := h2
      omega
    · intro c k hc hk e
      apply hq2 c k hc hk
      rw [e, Ptr.add_add]; congr 1; push_cast; ring
  have f20 : (val st6.mem O δo (((0 : ℕ) : ℤ) * os) : ℂ) = x 0 + Y 0 := by
    rw [← d40]
    have e := d5 0 (by omega)
    rw [if_neg (by omega)] at e
    rw [← e]
    apply val_congr
    intro c hc
    apply f2'
    · exact hO
    · intro c' k hc' hk e
      rw [ptr_add_right_inj] at e
      have := (hout c c' 0 (k + 1) hc hc' (by omega) (by omega) e).2
      omega
  -- the inverse permutation
  obtain ⟨st7, hst7⟩ : ∃ st7, st7 = (List.range (n - 1)).foldl (fun st (k : ℕ) => put O δo (((h ^ k % n : ℕ) : ℤ) * os) ((starRingEnd ℂ) (val st.mem B 1 ((k : ℤ) * 2))) st) st6 := ⟨_, rfl⟩
  have e7 : permLoop h n (n - 1) (fun k gpower st =>
      let st := st.set (O + gpower * os) (st.mem (B + (2 * (k : ℤ))))
      st.set (O + δo + gpower * os) (-st.mem (B + (2 * (k : ℤ) + 1)))) st6 = st7 := by
    rw [permLoop_eq (by omega) hnI hhn, forN_foldl, hst7]
    congr 1
    funext st k
    dsimp only
    rw [State.set_mem_ne _ (ne hO).symm, put_eq, val_c, mul_comm (k : ℤ) 2, add_comm (1 : ℤ)]
    congr 1
  obtain ⟨g1, g2, g3⟩ := puts_spec (B := O) (δ := δo) (o := fun k : ℕ => ((h ^ k % n : ℕ) : ℤ) * os) (F := fun k μ => (starRingEnd ℂ) (val μ B 1 ((k : ℤ) * 2))) (W := fun q => q.blk < st.next)
    (List.range (n - 1)) (by intro k _ c _; exact hO) (by
      intro k _ m m' hm
      congr 1
      apply Elt.dec_congr
      intro c _
      exact hm _ (by rw [Ptr.add_blk]; omega)) (by
      intro k hk k' hk' c c' hc hc' e
      rw [List.mem_range] at hk hk'
      obtain ⟨e1, e2⟩ := hout c c' _ _ hc hc' (Nat.mod_lt _ (by omega)) (Nat.mod_lt _ (by omega)) e
      exact ⟨e1, pow_mod_inj hho hk hk' e2⟩) List.nodup_range st6
  rw [← hst7] at g1 g2 g3
  have hfun : (raderApply omega cld1 cld2 n g h is os I (I + δi) O (O + δo) st).mem = st7.mem := by
    unfold raderApply
    rw [withBuf_mem]
    dsimp only
    rw [← hB, e1]
    rw [show O + δo + os = O + os + δo by rw [Ptr.add_add, Ptr.add_add, add_comm]] at e3 e5 ⊢
    rw [← hst2, e3, e4, e5, ← hst6, e7]
  refine ⟨⟨le_refl _, ?_⟩, ?_⟩
  · intro q hq hw
    rw [hfun, g2 q, f2' q hq, d5f q hq]
    · intro hw'; exact hw (Or.inl hw')
    · intro c k hc hk e; exact hw (Or.inl ⟨c, k + 1, hc, by omega, e⟩)
    · intro k _ c hc e; exact hw (Or.inl ⟨c, _, hc, Nat.mod_lt _ (by omega), e⟩)
  · intro k hk
    rw [hfun]
    by_cases hk0 : k = 0
    · subst hk0
      have : (val st7.mem O δo (((0 : ℕ) : ℤ) * os) : ℂ) = val st6.mem O δo (((0 : ℕ) : ℤ) * os) := by
        apply val_congr
        intro c hc
        apply g2
        intro k hk c' hc' e
        rw [ptr_add_right_inj] at e
        have := (hout c c' 0 _ hc hc' (by omega) (Nat.mod_lt _ (by omega)) e).2
        have := pow_mod_pos hh0 hhn k
        omega
      rw [this, f20]
      simp only [mul_zero, pow_zero, one_mul]
      rw [range_eq_Ico, sum_eq_sum_Ico_succ_bot (by omega), Genfft.sum_gen hg0 hgn ho (fun j => (val st.mem I δi ((j : ℤ) * is) : ℂ)), hY]
      simp [hx]
    · obtain ⟨j, hj, rfl⟩ := pow_mod_surj hh0 hhn hho (by omega) hk
      rw [g3 j (List.mem_range.2 hj), f3 j hj]


variable [CLib]

theorem rader_sound {cexp : ℕ → ℤ → ℝ × ℝ} (hc : ExactCexp cexp) (taste : Taste) : (rader cexp taste).Sound := by
  apply dftSolver_sound
  intro p fl hk
  obtain ⟨⟨hn1, hn0, hap⟩, hn2, hip⟩ := kosher_dft hk
  split
  rotate_left
  · exact good_nada
  rename_i d hsz hv
  split
  rotate_left
  · exact good_nada
  rename_i happ
  have hp : d.n.Prime := by
    have := Primes.isPrime_true happ.2
    rwa [Int.toNat_natCast] at this
  have : Fact d.n.Prime := ⟨hp⟩
  have hnI := Primes.isPrime_le happ.2
  have hn2 := hp.two_le
  obtain ⟨g, hgen, hg1, hgn, ho, -⟩ := Primes.findGenerator_some hp hnI
  have hpow := Primes.powerMod_some hnI (by exact_mod_cast hn2) (by positivity) (show (g : ℤ) < d.n by exact_mod_cast hgn) (d.n - 2) (d.n - 2) (le_refl _) (by omega)
  rw [Nat.cast_sub hn2] at hpow
  set h : ℕ := g ^ (d.n - 2) % d.n with hh
  have hpow : Primes.powerMod g ((d.n : ℤ) - 2) d.n = some (h : ℤ) := by
    rw [hh]; push_cast; exact hpow
  have hgh : (g : ZMod d.n) * h = 1 := by
    rw [hh, ZMod.natCast_mod]
    push_cast
    rw [← pow_succ', show d.n - 2 + 1 = d.n - 1 by omega, ← ho, pow_orderOf_eq_one]
  have hh0 : 0 < h := pow_mod_pos hg1 hgn _
  have hhn : h < d.n := Nat.mod_lt _ (by omega)
  dsimp only
  rw [hgen, Option.getD_some, hpow, Option.getD_some]
  have hdn := hn1 d (by rw [hsz]; simp)
  set buf := planBuf [p.ri, p.ii, p.ro, p.io] with hbuf
  have hblk : ∀ q ∈ [p.ri, p.ii, p.ro, p.io], ∀ a b : ℤ, q + a ≠ buf + b := by
    intro q hq a b he
    have h1 := congrArg Ptr.blk he
    have h2 : q.blk = buf.blk := h1
    have := planBuf_blk hq
    rw [← hbuf] at this; omega
  have ed : ∀ p : Ptr, (p + (1 : ℤ) - p : ℤ) = 1 := by intro p; show p.off + 1 - p.off = 1; ring
  have eo : (p.io + d.os - (p.ro + d.os) : ℤ) = p.io - p.ro := by show p.io.off + d.os - (p.ro.off + d.os) = p.io.off - p.ro.off; ring
  apply good_need
  · refine kosher_mkproblemDft ?_ ?_ ?_ ?_
    · simpa [NonNeg] using hdn.2
    · rw [nonNegV_some]; simp [NonNeg]
    · simp only [Pos, List.mem_singleton, forall_eq]; exact Nat.sub_pos_of_lt hn2
    · intro _ a _ b _
      rw [Ptr.add_add]
      exact (hblk _ (by simp) _ _).symm
  intro c1 h1
  obtain ⟨hG1, -⟩ := sound_mkproblemDft h1
  rw [ed, eo, decide_eq_false (fun h => hblk p.ro (by simp) d.os 0 (by rw [Ptr.add_zero]; exact h.symm))] at hG1
  apply good_need
  · refine kosher_mkproblemDft ?_ ?_ ?_ ?_
    · simpa [NonNeg] using hdn.2
    · rw [nonNegV_some]; simp [NonNeg]
    · simp only [Pos, List.mem_singleton, forall_eq]; exact Nat.sub_pos_of_lt hn2
    · intro _ a _ b _
      rw [Ptr.add_add]
      exact hblk _ (by simp) _ _
  intro c2 h2
  obtain ⟨hG2, -⟩ := sound_mkproblemDft h2
  rw [ed, eo, decide_eq_false (fun h => hblk p.ro (by simp) d.os 0 (by rw [Ptr.add_zero]; exact h))] at hG2
  apply good_need
  · refine kosher_mkproblemDft ?_ ?_ ?_ ?_
    · simp [NonNeg]
    · rw [nonNegV_some]; simp [NonNeg]
    · simp only [Pos, List.mem_singleton, forall_eq]; exact Nat.sub_pos_of_lt hn2
    · intro h; exact absurd rfl h
  intro c3 h3
  obtain ⟨hG3, -⟩ := sound_mkproblemDft h3
  rw [ed, decide_eq_true rfl] at hG3
  apply good_ret
  refine soundDft (by simp [hv]) ?_
  rw [hsz, hv]
  exact raderApply_ok hnI hg1 hgn ho hh0 hhn hgh (fun q hq => mkomega_ok hc hn2 hnI hhn hG3 hq) hG1 hG2

end FFTW.DftS
