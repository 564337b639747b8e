import Verif.Proofs.Bluestein
import Verif.Model.RaderTl
import Verif.Props.DftSolvers

/-!
# C43, C44: the algorithms of Rader and Bluestein
-/

namespace FFTW.DftS
open Tensor Spec

variable [CLib]

/-- C43: every plan the Rader solver makes is correct for its problem: it is made for prime sizes only, and if its three child plans are
right, then for all pointers (in place included) and memory contents it stores the DFT and changes nothing but its output -/
theorem C43_rader_solver {cexp : ℕ → ℤ → ℝ × ℝ} (hc : ExactCexp cexp) (taste : Taste) : (rader cexp taste).Sound := rader_sound hc taste

/-- C43 in elementary terms: `n` prime; children that compute DFTs of size `n - 1`; then the output at `k*os` is the DFT of the old input -/
theorem C43_rader_computes_dft {cexp : ℕ → ℤ → ℝ × ℝ} (hc : ExactCexp cexp) (n : ℕ) (hp : n.Prime) (hnI : (n : ℤ) ≤ INT_MAX) (is os δi δo : ℤ) (g ginv : ℤ)
    (hg : Primes.findGenerator n = some g) (hginv : Primes.powerMod g ((n : ℤ) - 2) n = some ginv) (cld1 cld2 cldW : Plan) (nd1 nd2 nd3 : Bool)
    (h1 : GOK dftK [((⟨n - 1, 2, os⟩ : Dim), ())] (some [⟨1, 0, 0⟩]) 1 δo false nd1 (fun I O => cld1.dftApply I (I + (1 : ℤ)) O (O + δo)))
    (h2 : GOK dftK [((⟨n - 1, os, 2⟩ : Dim), ())] (some [⟨1, 0, 0⟩]) δo 1 false nd2 (fun I O => cld2.dftApply I (I + δo) O (O + (1 : ℤ))))
    (h3 : GOK dftK [((⟨n - 1, 2, 2⟩ : Dim), ())] (some [⟨1, 0, 0⟩]) 1 1 true nd3 (fun I O => cldW.dftApply I (I + (1 : ℤ)) O (O + (1 : ℤ))))
    (I O : Ptr) (st : State) (hI : I.blk < st.next) (hO : O.blk < st.next)
    (hout : ∀ c c' k k' : ℕ, c < 2 → c' < 2 → k < n → k' < n → (c : ℤ) * δo + k * os = (c' : ℤ) * δo + k' * os → c = c' ∧ k = k')
    (hdis : ∀ c c' k k' : ℕ, c < 2 → c' < 2 → k < n → k' < n → I + ((c : ℤ) * δi + (k : ℤ) * is) ≠ O + ((c' : ℤ) * δo + (k' : ℤ) * os)) :
    let st' := raderApply (mkomega cexp n ginv cldW) cld1 cld2 n g ginv is os I (I + δi) O (O + δo) st
    ∀ k < n, (⟨st'.mem (O + (k : ℤ) * os), st'.mem (O + (δo + (k : ℤ) * os))⟩ : ℂ) =
      ∑ j ∈ Finset.range n, Complex.exp (-(2 * Real.pi * Complex.I) / n) ^ (j * k) * ⟨st.mem (I + (j : ℤ) * is), st.mem (I + (δi + (j : ℤ) * is))⟩ := by
  have : Fact n.Prime := ⟨hp⟩
  have hn2 := hp.two_le
  obtain ⟨g', hgen, hg1, hgn, ho, -⟩ := Primes.findGenerator_some hp hnI
  obtain rfl : g = g' := Option.some.inj (hg.symm.trans hgen)
  have hpow := Primes.powerMod_some hnI (by exact_mod_cast hn2) (by positivity) (show (g' : ℤ) < n by exact_mod_cast hgn) (n - 2) (n - 2) (le_refl _) (by omega)
  rw [Nat.cast_sub hn2] at hpow
  obtain ⟨h, hh⟩ : ∃ h, h = g' ^ (n - 2) % n := ⟨_, rfl⟩
  obtain rfl : ginv = h := by
    have := Option.some.inj (hginv.symm.trans hpow)
    rw [this, hh]; push_cast; rfl
  have hgh : (g' : ZMod n) * h = 1 := by
    rw [hh, ZMod.natCast_mod]
    push_cast
    rw [← pow_succ', show n - 2 + 1 = n - 1 by omega, ← ho, pow_orderOf_eq_one]
  have hh0 : 0 < h := hh ▸ pow_mod_pos hg1 hgn _
  have hhn : h < n := hh ▸ Nat.mod_lt _ (by omega)
  have hG := raderApply_ok (d := ⟨n, is, os⟩) (δi := δi) (inpl := false) (nd := true) hnI hg1 hgn ho hh0 hhn hgh (fun q hq => mkomega_ok hc (by omega) hnI hhn h3 hq) h1 h2
  have eo : outs (locT ℂ δi δo [((⟨n, is, os⟩ : Dim), ())] (some [])) = offs ([(2, δo), (n, os)] ++ []) := rfl
  have ei : ins (locT ℂ δi δo [((⟨n, is, os⟩ : Dim), ())] (some [])) = offs [(2, δi), (n, is)] := rfl
  obtain ⟨-, hv⟩ := hG ⟨by rw [eo]; exact nodup_of_PInj hout _ (by simp), by simp, by simp, by simp⟩ I O st ⟨hI, hO, by simp, by
    intro _ a ha b hb
    rw [ei] at ha; rw [eo, List.append_nil] at hb
    obtain ⟨c, hc, k, hk, rfl⟩ := mem_offs2.1 ha
    obtain ⟨c', hc', k', hk', rfl⟩ := mem_offs2.1 hb
    exact hdis c c' k k' hc hc' hk hk'⟩
  intro st' k hk
  have := hv [((⟨n, is, os⟩, ()), k)] ⟨rfl, by simpa using hk⟩ 0 (by simp [pairs, offs])
  rw [gOut_cons, gOut_nil] at this
  simp only [gSum, dftK, add_zero, Prod.fst_zero, Prod.snd_zero, val_c] at this
  exact this

/-- C43: the number-theoretic core: for a prime `n` and a generator `g` of its multiplicative group with inverse `h`, the cyclic convolution of
`x(g^k)` with the table (through transforms of size `n - 1`, conjugated to invert) is the DFT at the frequencies `h^j` -/
theorem C43_convolution {n : ℕ} (hp : n.Prime) {g h : ℕ} (hg0 : 0 < g) (hgn : g < n) (ho : orderOf (g : ZMod n) = n - 1) (hgh : (g : ZMod n) * h = 1)
    (x : ℕ → ℂ) {j : ℕ} (hj : j < n - 1) :
    x 0 + ∑ k ∈ Finset.range (n - 1), x (g ^ k % n) * ω n ^ (h ^ ((j + (n - 1) - k) % (n - 1)) % n) = ∑ m ∈ Finset.range n, ω n ^ (m * (h ^ j % n)) * x m := by
  have : Fact n.Prime := ⟨hp⟩
  have h2 := hp.two_le
  rw [← rader_math hg0 hgn ho hgh x hj, map_sum]
  simp only [map_mul, Complex.conj_conj, mul_add, Finset.sum_add_distrib]
  rw [conv_ω (by omega) (fun i => ω n ^ (h ^ i % n)) (fun k => x (g ^ k % n)) hj, add_comm]
  congr 1
  rw [Finset.sum_eq_single 0 (by intro b _ hb; rw [if_neg hb, mul_zero]) (by intro h; exact absurd (Finset.mem_range.2 (by omega)) h)]
  simp

/-- the solver does make plans: n = 17, in place -/
example (cexp : ℕ → ℤ → ℝ × ℝ) (fl : Flags) (c : Plan) :
    (((rader cexp fun _ _ => true).mkplan (.dft ⟨[⟨17, 2, 2⟩], some [], ⟨0, 0⟩, ⟨0, 1⟩, ⟨0, 0⟩, ⟨0, 1⟩⟩) fl).answer c).isSome = true := by
  have h7 : Primes.isPrime 17 = some true := by
    rw [Primes.isPrime_some (by norm_num)]; simpa using (by norm_num : Nat.Prime 17)
  simp [rader, dftSolver, h7, Mk.need, Mk.answer]

/-! ### C44 -/

/-- C44: every plan the Bluestein solver makes is correct for its problem, if its child plan (one transform of size `nb`, used three times)
is right -/
theorem C44_bluestein_solver {cexp : ℕ → ℤ → ℝ × ℝ} (hc : ExactCexp cexp) (taste : Taste) : (bluestein cexp taste).Sound := bluestein_sound hc taste

/-- C44 without the restriction to primes: for every size `n`, given the sequence `w_k = exp(iπk²/n)`, its transform table, and a plan for DFTs of
any size `nb ≥ 2n - 1`, `apply` stores the DFT (`GOK`: in place or not, any strides, nothing else changed) -/
theorem C44_apply_any_size (n nb : ℕ) (is os δi δo : ℤ) (hn : 0 < n) (hnb : 2 * n - 1 ≤ nb) (w : ℕ → ℝ × ℝ)
    (hw : ∀ k < n, w k = (Real.cos (2 * Real.pi * (k * k : ℕ) / (2 * n : ℕ)), Real.sin (2 * Real.pi * (k * k : ℕ) / (2 * n : ℕ)))) (cld : Plan) (inpl nd1 nd : Bool)
    (hG : GOK dftK [((⟨nb, 2, 2⟩ : Dim), ())] (some [⟨1, 0, 0⟩]) 1 1 true nd1 (fun I O => cld.dftApply I (I + (1 : ℤ)) O (O + (1 : ℤ)))) :
    GOK dftK [((⟨n, is, os⟩ : Dim), ())] (some []) δi δo inpl nd (fun I O => blueApply w (blueW w n nb cld) cld n nb is os I (I + δi) O (O + δo)) := by
  have hw' : ∀ k < n, (⟨(w k).1, (w k).2⟩ : ℂ) = (starRingEnd ℂ) (ω (2 * n) ^ (k * k)) := by
    intro k hk
    rw [hw k hk, ω_pow_cos]
    apply Complex.ext <;> simp [-Complex.ofReal_cos, -Complex.ofReal_sin]
  exact blueApply_ok (d := ⟨n, is, os⟩) hn hnb hw' (fun q hq => blueW_ok hn hnb hw' hG hq) hG

/-- C44: the loop that reduces `k²` modulo `2n` without computing it yields exactly the sequence, for every prime `n` -/
theorem C44_sequence {cexp : ℕ → ℤ → ℝ × ℝ} (hc : ExactCexp cexp) {n : ℕ} (hp : n.Prime) {k : ℕ} (hk : k < n) :
    (⟨(blueSeq cexp n k).1, (blueSeq cexp n k).2⟩ : ℂ) = Complex.exp (Real.pi * Complex.I * (k ^ 2 : ℕ) / n) := by
  rw [blueSeq_ok hc hp hk, ω_conj, Genfft.cis]
  congr 1
  have : (n : ℂ) ≠ 0 := by exact_mod_cast hp.ne_zero
  push_cast
  field_simp

/-- only the primes 2, 3 and 5 divide `m` -/
def Smooth (m : ℕ) : Prop := ∀ p : ℕ, p.Prime → p ∣ m → p = 2 ∨ p = 3 ∨ p = 5

open Classical in
omit [CLib] in
theorem factors_smooth (m : ℕ) (h1 : 1 ≤ m) (h2 : (m : ℤ) ≤ INT_MAX) : Primes.factorsIntoSmallPrimes m = some (decide (Smooth m)) := by
  have h5 : ∀ q ∈ [2, 3, 5], q.Prime := by
    intro q hq
    simp only [List.mem_cons, List.not_mem_nil, or_false] at hq
    rcases hq with rfl | rfl | rfl
    · exact Nat.prime_two
    · exact Nat.prime_three
    · exact Nat.prime_five
  have := Primes.factorsInto_some [2, 3, 5] m h5 h1 h2
  rw [Primes.factorsIntoSmallPrimes]
  simp only [List.map_cons, List.map_nil, Nat.cast_ofNat] at this
  rw [this]
  congr 1
  rw [Bool.eq_iff_iff, decide_eq_true_eq, decide_eq_true_eq]
  simp only [Smooth, List.mem_cons, List.not_mem_nil, or_false]

open Classical in
omit [CLib] in
theorem chooseTransformSize_step (m : ℕ) (h1 : 1 ≤ m) (h2 : (m : ℤ) < INT_MAX) :
    chooseTransformSize m = if Smooth m then some (m : ℤ) else chooseTransformSize ((m + 1 : ℕ) : ℤ) := by
  rw [chooseTransformSize, factors_smooth m h1 (le_of_lt h2), Primes.cadd_some (by rw [Primes.isINT_iff]; unfold INT_MAX at h2; omega)]
  simp only [Option.bind_eq_bind, Option.bind_some, decide_eq_true_eq]
  split
  · rfl
  · push_cast; rfl

omit [CLib] in
theorem chooseTransformSize_some {U : ℕ} (hU : Smooth U) (hUI : (U : ℤ) < INT_MAX) (k : ℕ) : ∀ m : ℕ, 1 ≤ m → m ≤ U → U - m ≤ k →
    ∃ r : ℕ, chooseTransformSize m = some (r : ℤ) ∧ m ≤ r ∧ r ≤ U ∧ Smooth r ∧ ∀ q, m ≤ q → q < r → ¬ Smooth q := by
  induction k with
  | zero =>
    intro m h1 h2 h3
    obtain rfl : m = U := by omega
    rw [chooseTransformSize_step m h1 hUI, if_pos hU]
    exact ⟨m, rfl, le_refl _, le_refl _, hU, fun q a b => absurd a (by omega)⟩
  | succ k ih =>
    intro m h1 h2 h3
    have hm : (m : ℤ) < INT_MAX := lt_of_le_of_lt (by exact_mod_cast h2) hUI
    rw [chooseTransformSize_step m h1 hm]
    by_cases hs : Smooth m
    · rw [if_pos hs]
      exact ⟨m, rfl, le_refl _, h2, hs, fun q a b => absurd a (by omega)⟩
    · rw [if_neg hs]
      have hne : m ≠ U := by rintro rfl; exact hs hU
      obtain ⟨r, h4, h5, h6, h7, h8⟩ := ih (m + 1) (by omega) (by omega) (by omega)
      refine ⟨r, h4, by omega, h6, h7, ?_⟩
      intro q hq hqr
      rcases Nat.eq_or_lt_of_le hq with rfl | h
      · exact hs
      · exact h8 q h hqr

omit [CLib] in
/-- C44: for every size up to 2^61 the search for the padded size ends, without overflow, at the least 2-3-5-smooth number `≥ 2n - 1`, and that
is less than `4n` -/
theorem C44_transform_size (n : ℕ) (hn : 1 ≤ n) (hb : n ≤ 2 ^ 61) :
    ∃ r : ℕ, blueNb n = some (r : ℤ) ∧ 2 * n - 1 ≤ r ∧ r < 4 * n ∧ Smooth r ∧ ∀ q, 2 * n - 1 ≤ q → q < r → ¬ Smooth q := by
  have hex : ∃ e, 2 * n - 1 ≤ 2 ^ e ∧ 2 ^ e < 4 * n ∧ e ≤ 62 := by
    refine ⟨Nat.clog 2 (2 * n), (by have := Nat.le_pow_clog (b := 2) (by norm_num) (2 * n); omega), ?_, ?_⟩
    · have h := Nat.pow_pred_clog_lt_self (b := 2) (by norm_num) (x := 2 * n) (by omega)
      have hpos : 0 < Nat.clog 2 (2 * n) := Nat.clog_pos (by norm_num) (by omega)
      obtain ⟨e, he⟩ : ∃ e, Nat.clog 2 (2 * n) = e + 1 := ⟨_, (Nat.succ_pred_eq_of_pos hpos).symm⟩
      rw [he] at h ⊢
      rw [Nat.pred_succ] at h
      rw [pow_succ]; omega
    · apply Nat.clog_le_of_le_pow
      calc 2 * n ≤ 2 * 2 ^ 61 := Nat.mul_le_mul_left _ hb
        _ = 2 ^ 62 := by norm_num
  obtain ⟨e, h1, h2, h3⟩ := hex
  have hI : ((2 ^ e : ℕ) : ℤ) < INT_MAX := by
    have : 2 ^ e ≤ 2 ^ 62 := Nat.pow_le_pow_right (by norm_num) h3
    have h62 : (2 : ℕ) ^ 62 = 4611686018427387904 := by norm_num
    unfold INT_MAX
    omega
  have hsm : Smooth (2 ^ e) := by
    intro p hp hd
    exact Or.inl ((Nat.prime_dvd_prime_iff_eq hp Nat.prime_two).1 (hp.dvd_of_dvd_pow hd))
  obtain ⟨r, h4, h5, h6, h7, h8⟩ := chooseTransformSize_some hsm hI (2 ^ e) (2 * n - 1) (by omega) h1 (by omega)
  refine ⟨r, ?_, h5, by omega, h7, h8⟩
  have h61 : (2 : ℕ) ^ 61 = 2305843009213693952 := by norm_num
  unfold blueNb
  rw [Primes.cmul_some (by rw [Primes.isINT_iff]; omega)]
  simp only [Option.bind_eq_bind, Option.bind_some]
  rw [Primes.csub_some (by rw [Primes.isINT_iff]; omega)]
  simp only [Option.bind_some]
  rw [← h4]
  congr 1
  omega

/-- the solver does make plans: n = 17, out of place -/
example (cexp : ℕ → ℤ → ℝ × ℝ) (fl : Flags) (c : Plan) :
    (((bluestein cexp fun _ _ => true).mkplan (.dft ⟨[⟨17, 2, 4⟩], some [], ⟨0, 0⟩, ⟨0, 1⟩, ⟨1, 0⟩, ⟨1, 1⟩⟩) fl).answer c).isSome = true := by
  have h7 : Primes.isPrime 17 = some true := by
    rw [Primes.isPrime_some (by norm_num)]; simpa using (by norm_num : Nat.Prime 17)
  obtain ⟨r, h8, -⟩ := C44_transform_size 17 (by norm_num) (by norm_num)
  simp [bluestein, dftSolver, h7, h8, Mk.need, Mk.answer]

end FFTW.DftS

namespace FFTW.RaderTl

/-- one step of a history -/
inductive Op
  | awake (k : Key) (fresh : ℕ)
  | sleep (i : ℕ)

/-- run a step -/
def step (s : St) : Op → St
  | .awake k f => awake k f s
  | .sleep i => (sleep i s).1

/-- `MALLOC` returns an address that is not 0 and not in use -/
def Legal (s : St) : Op → Prop
  | .awake _ f => f ≠ 0 ∧ ∀ t ∈ s.tl, t.W ≠ f
  | .sleep _ => True

/-- states of the process, starting without plans -/
inductive Reach : St → Prop
  | init : Reach ⟨[], []⟩
  | step {s : St} (op : Op) : Reach s → Legal s op → Reach (step s op)

/-- the invariant of every history -/
structure Inv (s : St) : Prop where
  nz : ∀ t ∈ s.tl, t.W ≠ 0
  distinct : (s.tl.map (·.W)).Nodup
  keys : (s.tl.map (·.key)).Nodup
  held : ∀ p ∈ s.plans, ∃ t ∈ s.tl, t.W = p.2 ∧ t.key = p.1
  count : ∀ t ∈ s.tl, t.refcnt = (s.plans.countP fun p => p.2 == t.W) ∧ 0 < t.refcnt


theorem find_cases (k : Key) : ∀ tl : List Entry, ((∀ t ∈ tl, t.key ≠ k) ∧ find k tl = (0, tl)) ∨
    ∃ l1 t l2, tl = l1 ++ t :: l2 ∧ t.key = k ∧ (∀ x ∈ l1, x.key ≠ k) ∧ find k tl = (t.W, l1 ++ { t with refcnt := t.refcnt + 1 } :: l2)
  | [] => Or.inl ⟨by simp, rfl⟩
  | t :: tl => by
    rw [find]
    by_cases h : t.key = k
    · rw [if_pos h]
      exact Or.inr ⟨[], t, tl, rfl, h, by simp, rfl⟩
    · rw [if_neg h]
      rcases find_cases k tl with ⟨h1, h2⟩ | ⟨l1, t', l2, rfl, h1, h2, h3⟩
      · refine Or.inl ⟨?_, by rw [h2]⟩
        intro x hx
        rcases List.mem_cons.1 hx with rfl | hx
        · exact h
        · exact h1 x hx
      · refine Or.inr ⟨t :: l1, t', l2, rfl, h1, ?_, by rw [h3]; rfl⟩
        intro x hx
        rcases List.mem_cons.1 hx with rfl | hx
        · exact h
        · exact h2 x hx

theorem deleteWalk_cases (W : ℕ) : ∀ tl : List Entry, (∃ t ∈ tl, t.W = W) →
    ∃ l1 t l2, tl = l1 ++ t :: l2 ∧ t.W = W ∧ (∀ x ∈ l1, x.W ≠ W) ∧
      deleteWalk W tl = if t.refcnt - 1 ≤ 0 then (l1 ++ l2, true) else (l1 ++ { t with refcnt := t.refcnt - 1 } :: l2, false)
  | [], h => by simp at h
  | t :: tl, h => by
    rw [deleteWalk]
    by_cases e : t.W = W
    · rw [if_pos e]
      exact ⟨[], t, tl, rfl, e, by simp, by simp⟩
    · rw [if_neg e]
      obtain ⟨l1, t', l2, rfl, h1, h2, h3⟩ := deleteWalk_cases W tl (by
        obtain ⟨x, hx, hw⟩ := h
        rcases List.mem_cons.1 hx with rfl | hx
        · exact absurd hw e
        · exact ⟨x, hx, hw⟩)
      refine ⟨t :: l1, t', l2, rfl, h1, ?_, ?_⟩
      · intro x hx
        rcases List.mem_cons.1 hx with rfl | hx
        · exact e
        · exact h2 x hx
      · rw [h3]; split <;> rfl

theorem Inv.awake {s : St} (h : Inv s) {k : Key} {f : ℕ} (hf : f ≠ 0) (hf' : ∀ t ∈ s.tl, t.W ≠ f) : Inv (awake k f s) := by
  obtain ⟨tl, plans⟩ := s
  obtain ⟨h1, h2, h3, h4, h5⟩ := h
  simp only at *
  unfold RaderTl.awake
  dsimp only
  rcases find_cases k tl with ⟨a, b⟩ | ⟨l1, t, l2, rfl, a, b, c⟩
  · rw [b]
    simp only [ne_eq, not_true_eq_false, if_false, insert]
    refine ⟨?_, ?_, ?_, ?_, ?_⟩
    · intro x hx
      rcases List.mem_cons.1 hx with rfl | hx
      · exact hf
      · exact h1 x hx
    · simp only [List.map_cons, List.nodup_cons, List.mem_map, not_exists, not_and]
      exact ⟨fun x hx => hf' x hx, h2⟩
    · simp only [List.map_cons, List.nodup_cons, List.mem_map, not_exists, not_and]
      exact ⟨fun x hx => a x hx, h3⟩
    · intro p hp
      rcases List.mem_cons.1 hp with rfl | hp
      · exact ⟨_, List.mem_cons_self, rfl, rfl⟩
      · obtain ⟨t, ht, e⟩ := h4 p hp
        exact ⟨t, List.mem_cons_of_mem _ ht, e⟩
    · intro x hx
      rcases List.mem_cons.1 hx with rfl | hx
      · rw [List.countP_cons_of_pos (by simp), List.countP_eq_zero.2]
        · simp
        · intro p hp
          obtain ⟨t, ht, e, -⟩ := h4 p hp
          have := hf' t ht
          simp only [beq_iff_eq, ← e]; exact this
      · rw [List.countP_cons_of_neg (by simpa using (hf' x hx).symm)]
        exact h5 x hx
  · rw [c]
    have ht0 : t.W ≠ 0 := h1 t (by simp)
    simp only [ne_eq, ht0, not_false_eq_true, if_true]
    have hmem : ∀ x, x ∈ l1 ++ { t with refcnt := t.refcnt + 1 } :: l2 → (x ∈ l1 ∨ x ∈ l2) ∨ x = { t with refcnt := t.refcnt + 1 } := by
      intro x hx
      rcases List.mem_append.1 hx with hx | hx
      · exact Or.inl (Or.inl hx)
      · rcases List.mem_cons.1 hx with rfl | hx
        · exact Or.inr rfl
        · exact Or.inl (Or.inr hx)
    have hold : ∀ x, (x ∈ l1 ∨ x ∈ l2) → x ∈ l1 ++ t :: l2 ∧ x.W ≠ t.W := by
      intro x hx
      refine ⟨by rcases hx with hx | hx <;> simp [hx], ?_⟩
      rw [List.map_append, List.map_cons, List.nodup_middle, List.nodup_cons] at h2
      intro e
      apply h2.1
      rw [← e]
      rcases hx with hx | hx
      · exact List.mem_append.2 (Or.inl (List.mem_map.2 ⟨x, hx, rfl⟩))
      · exact List.mem_append.2 (Or.inr (List.mem_map.2 ⟨x, hx, rfl⟩))
    refine ⟨?_, ?_, ?_, ?_, ?_⟩
    · intro x hx
      rcases hmem x hx with hx | rfl
      · exact h1 x (hold x hx).1
      · exact ht0
    · simpa using h2
    · simpa using h3
    · intro p hp
      rcases List.mem_cons.1 hp with rfl | hp
      · exact ⟨{ t with refcnt := t.refcnt + 1 }, by simp, rfl, a⟩
      · obtain ⟨x, hx, e⟩ := h4 p hp
        rcases List.mem_append.1 hx with hx | hx
        · exact ⟨x, by simp [hx], e⟩
        · rcases List.mem_cons.1 hx with rfl | hx
          · exact ⟨{ x with refcnt := x.refcnt + 1 }, by simp, e⟩
          · exact ⟨x, by simp [hx], e⟩
    · intro x hx
      rcases hmem x hx with hx | rfl
      · rw [List.countP_cons_of_neg (by simpa using (hold x hx).2.symm)]
        exact h5 x (hold x hx).1
      · obtain ⟨e1, e2⟩ := h5 t (by simp)
        rw [List.countP_cons_of_pos (by simp)]
        simp only
        push_cast
        omega

theorem countP_eraseIdx {α : Type} (p : α → Bool) : ∀ (l : List α) (i : ℕ) (a : α), l[i]? = some a →
    l.countP p = (l.eraseIdx i).countP p + if p a then 1 else 0
  | [], i, a, h => by simp at h
  | b :: l, 0, a, h => by
    obtain rfl : b = a := by simpa using h
    simp [List.countP_cons]
  | b :: l, i + 1, a, h => by
    have := countP_eraseIdx p l i a (by simpa using h)
    simp only [List.eraseIdx_cons_succ, List.countP_cons, this]
    omega

/-- the table of a plan that goes to sleep -/
theorem sleep_cases {s : St} (h : Inv s) {i : ℕ} {k : Key} {W : ℕ} (hi : s.plans[i]? = some (k, W)) :
    ∃ l1 t l2, s.tl = l1 ++ t :: l2 ∧ t.W = W ∧ t.key = k ∧
      sleep i s = if t.refcnt = 1 then (⟨l1 ++ l2, s.plans.eraseIdx i⟩, some W) else (⟨l1 ++ { t with refcnt := t.refcnt - 1 } :: l2, s.plans.eraseIdx i⟩, none) := by
  have hm : (k, W) ∈ s.plans := List.mem_of_getElem? hi
  obtain ⟨t0, ht0, e0, e1⟩ := h.held _ hm
  obtain ⟨l1, t, l2, a, b, c, d⟩ := deleteWalk_cases W s.tl ⟨t0, ht0, e0⟩
  have hmt : t ∈ s.tl := by rw [a]; simp
  have htt : t = t0 := List.inj_on_of_nodup_map h.distinct hmt ht0 (by rw [b]; exact e0.symm)
  have hpos := (h.count t hmt).2
  refine ⟨l1, t, l2, a, b, by rw [htt]; exact e1, ?_⟩
  unfold sleep
  rw [hi]
  have hW : W ≠ 0 := by rw [← b]; exact h.nz t hmt
  simp only [delete, hW, if_false, d]
  by_cases e : t.refcnt = 1
  · rw [if_pos (show t.refcnt - 1 ≤ 0 by omega), if_pos e]; rfl
  · rw [if_neg (show ¬ t.refcnt - 1 ≤ 0 by omega), if_neg e]; rfl

theorem Inv.sleep {s : St} (h : Inv s) (i : ℕ) : Inv (sleep i s).1 := by
  cases hi : s.plans[i]? with
  | none => unfold RaderTl.sleep; rw [hi]; exact h
  | some p =>
    obtain ⟨k, W⟩ := p
    obtain ⟨l1, t, l2, a, b, c, d⟩ := sleep_cases h hi
    obtain ⟨tl, plans⟩ := s
    obtain ⟨h1, h2, h3, h4, h5⟩ := h
    simp only at *
    subst a
    have hold : ∀ x, (x ∈ l1 ∨ x ∈ l2) → x ∈ l1 ++ t :: l2 ∧ x.W ≠ t.W := by
      intro x hx
      refine ⟨by rcases hx with hx | hx <;> simp [hx], ?_⟩
      rw [List.map_append, List.map_cons, List.nodup_middle, List.nodup_cons] at h2
      intro e
      apply h2.1
      rw [← e]
      rcases hx with hx | hx
      · exact List.mem_append.2 (Or.inl (List.mem_map.2 ⟨x, hx, rfl⟩))
      · exact List.mem_append.2 (Or.inr (List.mem_map.2 ⟨x, hx, rfl⟩))
    have hcnt : ∀ x : Entry, plans.countP (fun p => p.2 == x.W) = (plans.eraseIdx i).countP (fun p => p.2 == x.W) + if W == x.W then 1 else 0 :=
      fun x => countP_eraseIdx _ plans i (k, W) hi
    obtain ⟨c1, c2⟩ := h5 t (by simp)
    have hc := hcnt t
    simp only [b, beq_self_eq_true, if_true] at hc c1
    rw [d]
    split
    · rename_i e1
      have hz : (plans.eraseIdx i).countP (fun p => p.2 == W) = 0 := by omega
      rw [List.countP_eq_zero] at hz
      refine ⟨?_, ?_, ?_, ?_, ?_⟩
      · intro x hx; exact h1 x (hold x (List.mem_append.1 hx)).1
      · rw [List.map_append, List.map_cons, List.nodup_middle, List.nodup_cons] at h2
        rw [List.map_append]; exact h2.2
      · rw [List.map_append, List.map_cons, List.nodup_middle, List.nodup_cons] at h3
        rw [List.map_append]; exact h3.2
      · intro p hp
        obtain ⟨x, hx, e⟩ := h4 p (List.mem_of_mem_eraseIdx hp)
        refine ⟨x, ?_, e⟩
        rcases List.mem_append.1 hx with hx | hx
        · simp [hx]
        · rcases List.mem_cons.1 hx with rfl | hx
          · have := hz p hp
            simp only [beq_iff_eq, ← e.1, b, not_true_eq_false] at this
          · simp [hx]
      · intro x hx
        obtain ⟨m1, m2⟩ := hold x (List.mem_append.1 hx)
        have := hcnt x
        rw [b] at m2
        rw [if_neg (by simpa using m2.symm)] at this
        obtain ⟨q1, q2⟩ := h5 x m1
        rw [this] at q1
        exact ⟨by simpa using q1, q2⟩
    · rename_i e1
      have hmem : ∀ x, x ∈ l1 ++ { t with refcnt := t.refcnt - 1 } :: l2 → (x ∈ l1 ∨ x ∈ l2) ∨ x = { t with refcnt := t.refcnt - 1 } := by
        intro x hx
        rcases List.mem_append.1 hx with hx | hx
        · exact Or.inl (Or.inl hx)
        · rcases List.mem_cons.1 hx with rfl | hx
          · exact Or.inr rfl
          · exact Or.inl (Or.inr hx)
      refine ⟨?_, ?_, ?_, ?_, ?_⟩
      · intro x hx
        rcases hmem x hx with hx | rfl
        · exact h1 x (hold x hx).1
        · exact h1 t (by simp)
      · simpa using h2
      · simpa using h3
      · intro p hp
        obtain ⟨x, hx, e⟩ := h4 p (List.mem_of_mem_eraseIdx hp)
        rcases List.mem_append.1 hx with hx | hx
        · exact ⟨x, by simp [hx], e⟩
        · rcases List.mem_cons.1 hx with rfl | hx
          · exact ⟨{ x with refcnt := x.refcnt - 1 }, by simp, e⟩
          · exact ⟨x, by simp [hx], e⟩
      · intro x hx
        rcases hmem x hx with hx | rfl
        · obtain ⟨m1, m2⟩ := hold x hx
          have := hcnt x
          rw [b] at m2
          rw [if_neg (by simpa using m2.symm)] at this
          obtain ⟨q1, q2⟩ := h5 x m1
          rw [this] at q1
          exact ⟨by simpa using q1, q2⟩
        · simp only [b]
          omega

theorem inv_of_reach {s : St} (h : Reach s) : Inv s := by
  induction h with
  | init => exact ⟨by simp, by simp, by simp, by simp, by simp⟩
  | step op _ hl ih =>
    cases op with
    | awake k f => exact ih.awake hl.1 hl.2
    | sleep i => exact ih.sleep i

/-- C43, shared tables: after every history of plans being awakened and put to sleep, every awake plan's pointer is that of a live table made for its
key, every live table is used by some awake plan, and no two live tables have the same key -/
theorem C43_tables_live_while_used {s : St} (h : Reach s) :
    (∀ p ∈ s.plans, ∃ t ∈ s.tl, t.W = p.2 ∧ t.key = p.1) ∧ (∀ t ∈ s.tl, ∃ p ∈ s.plans, p.2 = t.W ∧ p.1 = t.key) ∧
    (∀ t ∈ s.tl, ∀ t' ∈ s.tl, t.key = t'.key → t = t') := by
  have hi := inv_of_reach h
  refine ⟨hi.held, ?_, fun t ht t' ht' e => List.inj_on_of_nodup_map hi.keys ht ht' e⟩
  intro t ht
  obtain ⟨h1, h2⟩ := hi.count t ht
  have : 0 < s.plans.countP fun p => p.2 == t.W := by omega
  obtain ⟨p, hp, e⟩ := List.countP_pos_iff.1 this
  have e : p.2 = t.W := by simpa using e
  obtain ⟨t', ht', e1, e2⟩ := hi.held p hp
  have : t' = t := List.inj_on_of_nodup_map hi.distinct ht' ht (e1.trans e)
  exact ⟨p, hp, e, by rw [← e2, this]⟩

/-- C43: a table is freed exactly when the last awake plan using it goes to sleep; so nothing is freed twice, and nothing is left when all plans sleep -/
theorem C43_table_freed_by_last_user {s : St} (h : Reach s) (i : ℕ) (k : Key) (W : ℕ) (hi : s.plans[i]? = some (k, W)) :
    (sleep i s).2 = if ∃ p ∈ (sleep i s).1.plans, p.2 = W then none else some W := by
  have hv := inv_of_reach h
  obtain ⟨l1, t, l2, a, b, c, d⟩ := sleep_cases hv hi
  have hp : (sleep i s).1.plans = s.plans.eraseIdx i := by rw [d]; split <;> rfl
  have hcnt := countP_eraseIdx (fun p => p.2 == t.W) s.plans i (k, W) hi
  obtain ⟨c1, c2⟩ := hv.count t (by rw [a]; simp)
  simp only [b, beq_self_eq_true, if_true] at hcnt c1
  have hiff : (∃ p ∈ s.plans.eraseIdx i, p.2 = W) ↔ t.refcnt ≠ 1 := by
    rw [show (∃ p ∈ s.plans.eraseIdx i, p.2 = W) ↔ 0 < (s.plans.eraseIdx i).countP (fun p => p.2 == W) by rw [List.countP_pos_iff]; simp]
    omega
  rw [hp]
  by_cases e : t.refcnt = 1
  · rw [if_neg (by rw [hiff]; simpa using e), d, if_pos e]
  · rw [if_pos (hiff.2 e), d, if_neg e]

theorem C43_no_tables_when_all_asleep {s : St} (h : Reach s) (hs : s.plans = []) : s.tl = [] := by
  have := (C43_tables_live_while_used h).2.1
  rw [hs] at this
  cases ht : s.tl with
  | nil => rfl
  | cons t tl => rw [ht] at this; obtain ⟨p, hp, _⟩ := this t (by simp); simp at hp

/-- a history in which a table is shared, kept and finally freed -/
example : let s0 : St := ⟨[], []⟩
    let s1 := awake (7, 7, 5) 1 s0
    let s2 := awake (7, 7, 5) 2 s1
    let s3 := awake (11, 11, 6) 2 s2
    s2.plans = [((7, 7, 5), 1), ((7, 7, 5), 1)] ∧ (sleep 1 s3).2 = none ∧ (sleep 0 (sleep 1 s2).1).2 = some 1 := by
  simp [awake, find, insert, sleep, delete, deleteWalk]

end FFTW.RaderTl
