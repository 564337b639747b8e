import Verif.Model.RdftDht
import Verif.Proofs.DftGeneric
import Verif.Proofs.ReodftSplit

/-!
# rdft/generic.c, rdft/dht-r2hc.c and rdft/rdft-dht.c are correct
-/

namespace FFTW.RdftS
open Tensor Spec Finset DftS Reodft
open Real (cos sin pi)

local notation "π" => Real.pi

/-- a sum folded around `n/2` -/
theorem sum_pairs {n : ℕ} (hn : 0 < n) (f : ℕ → ℝ) :
    ∑ j ∈ range n, f j = f 0 + ∑ i ∈ range ((n - 1) / 2), (f (i + 1) + f (n - (i + 1))) + if n % 2 = 0 then f (n / 2) else 0 := by
  rcases Nat.even_or_odd' n with ⟨m, rfl | rfl⟩
  · rw [if_pos (by omega), show 2 * m / 2 = m by omega, show (2 * m - 1) / 2 = m - 1 by omega, sum_fold m (by omega)]; ring
  · rw [if_neg (by omega), Spec.sum_pair, show (2 * m + 1 - 1) / 2 = m by omega, add_zero]
    congr 1
    refine sum_congr rfl fun i hi => ?_
    rw [show 2 * m - i = 2 * m + 1 - (i + 1) by omega]

theorem hc2r_zero (n k : ℕ) : rK .HC2R00 n 0 k = 1 := by
  show hc2rK 0 0 n 0 k = _
  rw [hc2rK, if_pos (by omega), if_pos (by simp)]; simp
theorem hc2r_lo {n p : ℕ} (k : ℕ) (h0 : 0 < p) (h : 2 * p < n) : rK .HC2R00 n p k = 2 * cos (2 * π * p * k / n) := by
  show hc2rK 0 0 n p k = _
  rw [hc2rK, if_pos (by omega), if_neg (by omega)]; congr 2; push_cast; ring
theorem hc2r_mid {n p : ℕ} (k : ℕ) (h : 2 * p = n) (h0 : 0 < p): rK .HC2R00 n p k = (-1) ^ k := by
  have hp : (p : ℝ) ≠ 0 := by exact_mod_cast h0.ne'
  show hc2rK 0 0 n p k = _
  rw [hc2rK, if_pos (by omega), if_pos (by omega), one_mul, ← cos_nat_pi]
  congr 1; rw [← h]; push_cast; field_simp; ring
theorem hc2r_hi {n p : ℕ} (k : ℕ) (h0 : 0 < p) (h : 2 * p < n) : rK .HC2R00 n (n - p) k = - (2 * sin (2 * π * p * k / n)) := by
  show hc2rK 0 0 n (n - p) k = _
  rw [hc2rK, if_neg (by omega), show n - 0 - (n - p) = p by omega]; congr 3; push_cast; ring

theorem cos_swap {n j : ℕ} (hj : j ≤ n) (hn : 0 < n) (k : ℕ) : cos (2 * π * ((n - j : ℕ) : ℝ) * k / n) = cos (2 * π * j * k / n) := by
  have hn' : (n : ℝ) ≠ 0 := by exact_mod_cast hn.ne'
  rw [← cos_nat_two_pi_sub k (2 * π * j * k / n)]
  congr 1; rw [Nat.cast_sub hj]; field_simp
theorem sin_swap {n j : ℕ} (hj : j ≤ n) (hn : 0 < n) (k : ℕ) : sin (2 * π * ((n - j : ℕ) : ℝ) * k / n) = - sin (2 * π * j * k / n) := by
  have hn' : (n : ℝ) ≠ 0 := by exact_mod_cast hn.ne'
  rw [← sin_nat_two_pi_sub k (2 * π * j * k / n)]
  congr 1; rw [Nat.cast_sub hj]; field_simp

theorem dht_def (n j k : ℕ) : rK .DHT n j k = cos (2 * π * j * k / n) + sin (2 * π * j * k / n) := rfl
theorem dht_comm (n j k : ℕ) : rK .DHT n j k = rK .DHT n k j := by
  rw [dht_def, dht_def, show 2 * π * (j : ℝ) * k / n = 2 * π * k * j / n by ring]
theorem dht_swap {n j : ℕ} (hj : j ≤ n) (hn : 0 < n) (k : ℕ) : rK .DHT n (n - j) k = cos (2 * π * j * k / n) - sin (2 * π * j * k / n) := by
  rw [dht_def, cos_swap hj hn, sin_swap hj hn]; ring
theorem dht_swap' {n k : ℕ} (hk : k ≤ n) (hn : 0 < n) (j : ℕ) : rK .DHT n j (n - k) = cos (2 * π * j * k / n) - sin (2 * π * j * k / n) := by
  rw [dht_comm, dht_swap hk hn, show 2 * π * (j : ℝ) * k / n = 2 * π * k * j / n by ring]
theorem dht_zero (n j : ℕ) : rK .DHT n j 0 = 1 := by rw [dht_def]; simp
theorem r2hc_zero (n j : ℕ) : rK .R2HC00 n j 0 = 1 := by rw [r2hc_lo _ (by omega)]; simp
theorem dht_mid {n p : ℕ} (j : ℕ) (h : 2 * p = n) (h0 : 0 < p) : rK .DHT n j p = (-1) ^ j := by
  have hp : (p : ℝ) ≠ 0 := by exact_mod_cast h0.ne'
  have : 2 * π * (j : ℝ) * p / n = j * π := by rw [← h]; push_cast; field_simp
  rw [dht_def, this, Real.sin_nat_mul_pi, cos_nat_pi, add_zero]
theorem r2hc_mid {n p : ℕ} (j : ℕ) (h : 2 * p = n) (h0 : 0 < p) : rK .R2HC00 n j p = (-1) ^ j := by
  have hp : (p : ℝ) ≠ 0 := by exact_mod_cast h0.ne'
  have : 2 * π * (j : ℝ) * p / n = j * π := by rw [← h]; push_cast; field_simp
  rw [r2hc_lo _ (by omega), this, cos_nat_pi]

/-- the effect of the butterfly loop on the values -/
noncomputable def bfly (F G : ℝ → ℝ → ℝ) (n : ℕ) (y : ℕ → ℝ) (k : ℕ) : ℝ :=
  if k = 0 ∨ 2 * k = n then y k else if 2 * k < n then F (y k) (y (n - k)) else G (y (n - k)) (y k)

/-- the butterfly loop, as an update of the array -/
theorem butterfly_upd {F G : ℝ → ℝ → ℝ} {n : ℕ} {s : ℤ} (hs : RInj s n) (X : Ptr) (st : State) :
    Upd st.mem st.next X s n (bfly F G n fun k => st.mem (X + (k : ℤ) * s)) (fun k => ¬ (k = 0 ∨ 2 * k = n)) (butterfly F G n s X st) := by
  unfold butterfly
  have f0 := Upd.start st X s n (bfly F G n fun k => st.mem (X + (k : ℤ) * s))
  have := Upd.loop (S := fun i k => 1 ≤ k ∧ k ≤ i ∨ n - i ≤ k ∧ k < n) (f0.congr (by intro k hk; beta_reduce; simp only [iff_false]; omega)) (N := (n - 1) / 2)
    (f := fun i0 st =>
    let i := i0 + 1
    let a := st.mem (X + (i : ℤ) * s)
    let b := st.mem (X + ((n - i : ℕ) : ℤ) * s)
    (st.set (X + (i : ℤ) * s) (F a b)).set (X + ((n - i : ℕ) : ℤ) * s) (G a b)) (by
      intro i hi st1 f
      dsimp only
      have ea := f.old hs (k := i + 1) (by omega) (by omega)
      have eb := f.old hs (k := n - (i + 1)) (by omega) (by omega)
      refine ((f.set hs (k := i + 1) (by omega) rfl ?_).set hs (k := n - (i + 1)) (by omega) rfl ?_).congr (by intro k hk; beta_reduce; omega)
      · rw [bfly, if_neg (by omega), if_pos (by omega), ea, eb]
      · rw [bfly, if_neg (by omega), if_neg (by omega), ea, eb, show n - (n - (i + 1)) = i + 1 by omega])
  exact this.congr (by intro k hk; beta_reduce; omega)

theorem butterfly_spec {F G : ℝ → ℝ → ℝ} {n : ℕ} {s : ℤ} (hs : RInj s n) (X : Ptr) (st : State) :
    (butterfly F G n s X st).next = st.next ∧ (∀ q, (∀ k < n, q ≠ X + (k : ℤ) * s) → (butterfly F G n s X st).mem q = st.mem q) ∧
    ∀ k < n, (butterfly F G n s X st).mem (X + (k : ℤ) * s) = bfly F G n (fun k => st.mem (X + (k : ℤ) * s)) k := by
  have f := butterfly_upd (F := F) (G := G) hs X st
  refine ⟨f.next, fun q hq => f.out q fun k hk _ => hq k hk, fun k hk => ?_⟩
  by_cases h : k = 0 ∨ 2 * k = n
  · rw [f.old hs hk (by exact not_not.2 h), bfly, if_pos h]
  · exact f.val k hk h

/-! ### the identities -/

theorem dht_of_r2hc {n : ℕ} (x y : ℕ → ℝ) (hy : ∀ k < n, y k = ∑ j ∈ range n, rK .R2HC00 n j k * x j) {k : ℕ} (hk : k < n) :
    bfly (fun a b => a - b) (fun a b => a + b) n y k = ∑ j ∈ range n, rK .DHT n j k * x j := by
  rw [bfly]
  split_ifs with h h2
  · rw [hy k hk]
    refine sum_congr rfl fun j _ => ?_
    rcases h with rfl | h
    · rw [dht_zero, r2hc_zero]
    · rcases Nat.eq_zero_or_pos k with rfl | h0
      · rw [dht_zero, r2hc_zero]
      · rw [dht_mid j h h0, r2hc_mid j h h0]
  · rw [hy k hk, hy _ (by omega), ← sum_sub_distrib]
    refine sum_congr rfl fun j _ => ?_
    rw [r2hc_lo j (by omega), r2hc_hi j (by omega) h2, dht_def]; ring
  · obtain ⟨m, rfl⟩ : ∃ m, k = n - m := ⟨n - k, by omega⟩
    have hm : 0 < m := by omega
    rw [show n - (n - m) = m by omega, hy _ hk, hy m (by omega), ← sum_add_distrib]
    refine sum_congr rfl fun j _ => ?_
    rw [r2hc_lo j (by omega), r2hc_hi j (by omega) (by omega), dht_swap' (by omega) (by omega)]; ring

theorem r2hc_of_dht {n : ℕ} (x y : ℕ → ℝ) (hy : ∀ k < n, y k = ∑ j ∈ range n, rK .DHT n j k * x j) {k : ℕ} (hk : k < n) :
    bfly (fun a b => (1 / 2) * a + (1 / 2) * b) (fun a b => (1 / 2) * b - (1 / 2) * a) n y k = ∑ j ∈ range n, rK .R2HC00 n j k * x j := by
  rw [bfly]
  split_ifs with h h2
  · rw [hy k hk]
    refine sum_congr rfl fun j _ => ?_
    rcases h with rfl | h
    · rw [dht_zero, r2hc_zero]
    · rcases Nat.eq_zero_or_pos k with rfl | h0
      · rw [dht_zero, r2hc_zero]
      · rw [dht_mid j h h0, r2hc_mid j h h0]
  · rw [hy k hk, hy _ (by omega), mul_sum, mul_sum, ← sum_add_distrib]
    refine sum_congr rfl fun j _ => ?_
    rw [r2hc_lo j (by omega), dht_swap' (by omega) (by omega), dht_def]; ring
  · obtain ⟨m, rfl⟩ : ∃ m, k = n - m := ⟨n - k, by omega⟩
    have hm : 0 < m := by omega
    rw [show n - (n - m) = m by omega, hy _ hk, hy m (by omega), mul_sum, mul_sum, ← sum_sub_distrib]
    refine sum_congr rfl fun j _ => ?_
    rw [r2hc_hi j (by omega) (by omega), dht_swap' (by omega) (by omega), dht_def]; ring

theorem hc2r_of_dht {n : ℕ} (x : ℕ → ℝ) {k : ℕ} (hk : k < n) :
    ∑ j ∈ range n, rK .DHT n j k * bfly (fun a b => a - b) (fun a b => a + b) n x j = ∑ j ∈ range n, rK .HC2R00 n j k * x j := by
  have hn : 0 < n := by omega
  rw [sum_pairs hn, sum_pairs hn]
  congr 1
  · congr 1
    · rw [bfly, if_pos (by simp), hc2r_zero, dht_comm, dht_zero]
    · refine sum_congr rfl fun i hi => ?_
      have := mem_range.1 hi
      rw [bfly, if_neg (by omega), if_pos (by omega), bfly, if_neg (by omega), if_neg (by omega), hc2r_lo k (by omega) (by omega), hc2r_hi k (by omega) (by omega),
        dht_swap (by omega) hn, dht_def, show n - (n - (i + 1)) = i + 1 by omega]
      ring
  · split_ifs with h
    · rw [bfly, if_pos (by omega), hc2r_mid k (by omega) (by omega), dht_comm, dht_mid k (by omega) (by omega)]
    · rfl

/-! ### the solvers -/

variable [CLib]

theorem GOK.R1 {d : Dim} {kd : RKind} {inpl nd : Bool} {g : Ptr → Ptr → State → State} (h : GOK rK [(d, kd)] (some []) 0 0 inpl nd g) :
    R1 kd d.n d.is d.os inpl nd g := h.rank1R

/-- a butterfly after a transform -/
theorem R1_post {K K' : RKind} {n : ℕ} {is os : ℤ} {inpl nd : Bool} {c : Ptr → Ptr → State → State} {F G : ℝ → ℝ → ℝ} (hc : R1 K n is os inpl nd c)
    (math : ∀ x y : ℕ → ℝ, (∀ k < n, y k = ∑ j ∈ range n, rK K n j k * x j) → ∀ k < n, bfly F G n y k = ∑ j ∈ range n, rK K' n j k * x j) :
    R1 K' n is os inpl nd (fun I O st => butterfly F G n os O (c I O st)) := by
  intro ho hi I O st bI bO hin hout
  obtain ⟨h1, h2, h3⟩ := hc ho hi I O st bI bO hin hout
  obtain ⟨b1, b2, b3⟩ := butterfly_spec (F := F) (G := G) ho O (c I O st)
  refine ⟨by rw [b1]; exact h1, fun q hq hk hj => by rw [b2 q hk, h2 q hq hk hj], fun k hk => ?_⟩
  rw [b3 k hk]
  exact math (fun j => st.mem (I + (j : ℤ) * is)) _ h3 k hk

/-- a butterfly on the input before a transform that may destroy it -/
theorem R1_pre {K K' : RKind} {n : ℕ} {is os : ℤ} {inpl : Bool} {c : Ptr → Ptr → State → State} {F G : ℝ → ℝ → ℝ} (hc : R1 K n is os inpl false c)
    (math : ∀ x : ℕ → ℝ, ∀ k < n, ∑ j ∈ range n, rK K n j k * bfly F G n x j = ∑ j ∈ range n, rK K' n j k * x j) :
    R1 K' n is os inpl false (fun I O st => c I O (butterfly F G n is I st)) := by
  intro ho hi I O st bI bO hin hout
  obtain ⟨b1, b2, b3⟩ := butterfly_spec (F := F) (G := G) (hi rfl) I st
  obtain ⟨h1, h2, h3⟩ := hc ho hi I O (butterfly F G n is I st) (by rw [b1]; exact bI) (by rw [b1]; exact bO) hin hout
  rw [b1] at h1 h2
  refine ⟨h1, fun q hq hk hj => by rw [h2 q hq hk hj, b2 q (hj rfl)], fun k hk => ?_⟩
  rw [h3 k hk, ← math]
  · exact sum_congr rfl fun j hj => by rw [b3 j (mem_range.1 hj)]
  · exact hk

omit [CLib] in
theorem hc2rSavePre_spec {n : ℕ} {is os : ℤ} {inpl : Bool} (hn : 0 < n) (ho : RInj os n) {I O : Ptr} (st : State)
    (hin : inpl = true → I = O ∧ ∀ j < n, (j : ℤ) * is = (j : ℤ) * os) (hout : inpl = false → ∀ j < n, ∀ k < n, I + (j : ℤ) * is ≠ O + (k : ℤ) * os) :
    Upd st.mem st.next O os n (bfly (fun a b => a - b) (fun a b => a + b) n fun k => st.mem (I + (k : ℤ) * is)) (fun _ => True) (hc2rSavePre n is os I O st) := by
  set A := bfly (fun a b => a - b) (fun a b => a + b) n fun k => st.mem (I + (k : ℤ) * is) with hA
  have rd : ∀ {S : ℕ → Prop} {st1 : State}, Upd st.mem st.next O os n A S st1 → ∀ j < n, ¬ S j → st1.mem (I + (j : ℤ) * is) = st.mem (I + (j : ℤ) * is) := by
    intro S st1 f j hj hS
    cases inpl with
    | true => obtain ⟨e, h⟩ := hin rfl; subst e; rw [h j hj]; exact f.old ho hj hS
    | false => exact f.out _ fun k hk _ => hout rfl j hj k hk
  have z : ∀ (p : Ptr) (s : ℤ), p + ((0 : ℕ) : ℤ) * s = p := fun p s => by rw [Nat.cast_zero, zero_mul, ptr_add_zero]
  unfold hc2rSavePre
  dsimp only
  have f0 := Upd.start st O os n A
  have f1 : Upd st.mem st.next O os n A (fun k => k = 0) (st.set O (st.mem I)) :=
    (f0.set ho (k := 0) (v := st.mem I) hn (z O os).symm (by rw [hA, bfly, if_pos (by simp), z])).congr (by intro k hk; simp)
  have f2 := Upd.loop (S := fun i k => k = 0 ∨ 1 ≤ k ∧ k ≤ i ∨ n - i ≤ k ∧ k < n) (f1.congr (by intro k hk; beta_reduce; omega)) (N := (n - 1) / 2)
    (f := fun i0 st =>
      let i := i0 + 1
      let a := st.mem (I + (i : ℤ) * is)
      let b := st.mem (I + ((n - i : ℕ) : ℤ) * is)
      (st.set (O + (i : ℤ) * os) (a - b)).set (O + ((n - i : ℕ) : ℤ) * os) (a + b)) (by
      intro i hi st1 f
      dsimp only
      have ea := rd f (i + 1) (by omega) (by omega)
      have eb := rd f (n - (i + 1)) (by omega) (by omega)
      refine ((f.set ho (k := i + 1) (by omega) rfl ?_).set ho (k := n - (i + 1)) (by omega) rfl ?_).congr (by intro k hk; beta_reduce; omega)
      · rw [hA, bfly, if_neg (by omega), if_pos (by omega), ea, eb]
      · rw [hA, bfly, if_neg (by omega), if_neg (by omega), ea, eb, show n - (n - (i + 1)) = i + 1 by omega])
  dsimp only at f2
  split
  · rename_i h
    have e := rd f2 ((n - 1) / 2 + 1) (by omega) (by omega)
    exact (f2.set ho (k := (n - 1) / 2 + 1) (by omega) rfl (by rw [e, hA, bfly, if_pos (by omega)])).congr (by intro k hk; simp only [true_iff]; omega)
  · exact f2.congr (by intro k hk; simp only [true_iff]; omega)

omit [CLib] in
/-- the input-preserving variant -/
theorem R1_save {n : ℕ} (hn : 0 < n) {is os : ℤ} {inpl nd nd' : Bool} {c : Ptr → Ptr → State → State} (hc : R1 .DHT n os os true nd' c) :
    R1 .HC2R00 n is os inpl nd (fun I O st => c O O (hc2rSavePre n is os I O st)) := by
  intro ho hi I O st bI bO hin hout
  have f := hc2rSavePre_spec hn ho st hin hout
  obtain ⟨h1, h2, h3⟩ := hc ho (fun _ => ho) O O (hc2rSavePre n is os I O st) (by rw [f.next]; exact bO) (by rw [f.next]; exact bO) (fun _ => ⟨rfl, fun _ _ => rfl⟩) (by simp)
  rw [f.next] at h1 h2
  refine ⟨h1, fun q hq hk _ => by rw [h2 q hq hk fun _ => hk, f.out q fun k hk' _ => hk k hk'], fun k hk => ?_⟩
  rw [h3 k hk, ← hc2r_of_dht _ hk]
  exact sum_congr rfl fun j hj => by rw [f.val j (mem_range.1 hj) trivial]

theorem nd_noDhtR2hc (fl : Flags) : (fl.modify { lset := NO_DHT_R2HC }).nd = fl.nd := by
  simp only [Flags.nd, Flags.modify, NO_DESTROY_INPUT, NO_DHT_R2HC]
  congr 1
  apply propext
  apply not_congr
  have : ∀ x : BitVec 20, (x &&& ~~~0 ||| 0x8000) &&& 0x1000 = x &&& 0x1000 := by
    intro x
    ext i hi
    simp only [BitVec.getElem_and, BitVec.getElem_or, BitVec.getElem_not]
    have : i < 20 := hi
    interval_cases i <;> simp
  rw [this]

theorem dhtR2hc_sound (taste : Taste) : (dhtR2hc taste).Sound := by
  apply rdftSolver_sound
  intro p fl hk
  obtain ⟨hpk, ha, hpv, hin⟩ := kosher_rdft hk
  split
  rotate_left
  · exact good_nada
  rename_i d hsz hv
  split
  rotate_left
  · exact good_nada
  have hn0 : 0 < d.n := hpk (d, .DHT) (by simp [hsz])
  have hpos : PosK [(d, RKind.R2HC00)] := by simpa [PosK] using hn0
  apply good_need
  · exact kosher_mkproblemRdft hpos (fun h => by have := ha h; rw [hsz, hv] at this; exact this)
  intro cld hcld
  rw [nd_noDhtR2hc] at hcld
  obtain ⟨hG, -⟩ := sound_mkproblemRdft hpos hcld
  apply good_ret
  refine soundRdft (by simp [hv]) ?_
  rw [hsz, hv]
  exact GOK_rank1R (R1_post hG.rank1R fun x y hy k hk => dht_of_r2hc x y hy hk)

theorem rdftDht_sound (taste : Taste) : (rdftDht taste).Sound := by
  apply rdftSolver_sound
  intro p fl hk
  obtain ⟨hpk, ha, hpv, hin⟩ := kosher_rdft hk
  split
  rotate_left
  · exact good_nada
  rename_i d kd hsz hv
  split
  rotate_left
  · exact good_nada
  rename_i h
  obtain ⟨hkd, hn2, -⟩ := h
  split
  · rename_i hd
    have hpos : PosK [(d, RKind.DHT)] := by simp [PosK]; omega
    apply good_need
    · exact kosher_mkproblemRdft hpos (fun h => by have := ha h; rw [hsz, hv] at this; exact this)
    intro cld hcld
    rw [modify_default] at hcld
    obtain ⟨hG, -⟩ := sound_mkproblemRdft hpos hcld
    apply good_ret
    refine soundRdft (by simp [hv]) ?_
    rw [hsz, hv]
    rcases hkd with rfl | rfl
    · simp only [if_true]
      exact GOK_rank1R (R1_post hG.rank1R fun x y hy k hk => r2hc_of_dht x y hy hk)
    · simp only [reduceCtorEq, if_false, false_or] at hd ⊢
      rw [hd] at hG ⊢
      exact GOK_rank1R (R1_pre hG.rank1R fun x k hk => hc2r_of_dht x hk)
  · rename_i hd
    have hpos : PosK [(d.inplace .OS, RKind.DHT)] := by simp [PosK, Dim.inplace]; omega
    apply good_need
    · exact kosher_mkproblemRdft hpos (fun h => absurd rfl h)
    intro cld hcld
    rw [modify_default] at hcld
    obtain ⟨hG, -⟩ := sound_mkproblemRdft hpos hcld
    rw [decide_eq_true rfl] at hG
    apply good_ret
    refine soundRdft (by simp [hv]) ?_
    rw [hsz, hv]
    obtain rfl : kd = .HC2R00 := by rcases hkd with rfl | rfl <;> simp_all
    exact GOK_rank1R (R1_save (by omega) hG.rank1R)

/-! ### rdft/generic.c -/

omit [CLib] in
theorem hartleyR_spec {mem : Ptr → ℝ} {n : ℕ} {x : Ptr} {xs : ℤ} {u v : ℕ → ℝ} {f : ℕ → HartR → HartR}
    (hf : ∀ i0 s, f i0 s = { o := Function.update (Function.update s.o (1 + 2 * i0) (u i0)) (1 + 2 * i0 + 1) (v i0), sr := s.sr + u i0 }) :
    let s := iter ((n - 1) / 2) f { o := Function.update (fun _ => 0) 0 (mem x), sr := mem x }
    s.o 0 = mem x ∧ (∀ i < (n - 1) / 2, s.o (1 + 2 * i) = u i ∧ s.o (1 + 2 * i + 1) = v i) ∧ s.sr = mem x + ∑ i ∈ range ((n - 1) / 2), u i := by
  refine iter_inv (P := fun t (s : HartR) => s.o 0 = mem x ∧ (∀ i < t, s.o (1 + 2 * i) = u i ∧ s.o (1 + 2 * i + 1) = v i) ∧ s.sr = mem x + ∑ i ∈ range t, u i) ?_ ?_
  · simp
  · rintro t - s ⟨h1, h2, h3⟩
    rw [hf]
    refine ⟨?_, ?_, ?_⟩
    · dsimp only
      rw [Function.update_of_ne (by omega), Function.update_of_ne (by omega), h1]
    · intro i hi
      dsimp only
      rcases Nat.lt_succ_iff_lt_or_eq.1 hi with hi | rfl
      · rw [Function.update_of_ne (by omega), Function.update_of_ne (by omega), Function.update_of_ne (by omega), Function.update_of_ne (by omega)]
        exact h2 i hi
      · rw [Function.update_of_ne (by omega), Function.update_self, Function.update_self]
        exact ⟨rfl, rfl⟩
    · dsimp only; rw [h3, sum_range_succ, add_assoc]

omit [CLib] in
theorem cdotR_spec (n : ℕ) (x w : ℕ → ℝ) :
    (cdotR n x w).1 = x 0 + ∑ i ∈ range ((n - 1) / 2), x (1 + 2 * i) * w (2 * i) ∧
    (cdotR n x w).2 = ∑ i ∈ range ((n - 1) / 2), x (1 + 2 * i + 1) * w (2 * i + 1) := by
  refine iter_inv (P := fun t (s : ℝ × ℝ) => s.1 = x 0 + ∑ i ∈ range t, x (1 + 2 * i) * w (2 * i) ∧ s.2 = ∑ i ∈ range t, x (1 + 2 * i + 1) * w (2 * i + 1)) (by simp) ?_
  rintro t - s ⟨h1, h2⟩
  simp only [sum_range_succ, h1, h2, add_assoc, and_self]

omit [CLib] in
theorem cos_mod (n m : ℕ) (hn : 0 < n) : cos (2 * π * ((m % n : ℕ) : ℝ) / n) = cos (2 * π * m / n) ∧ sin (2 * π * ((m % n : ℕ) : ℝ) / n) = sin (2 * π * m / n) := by
  have hn' : (n : ℝ) ≠ 0 := by exact_mod_cast hn.ne'
  have e : 2 * π * (m : ℝ) / n = 2 * π * ((m % n : ℕ) : ℝ) / n + ((m / n : ℕ) : ℝ) * (2 * π) := by
    have : (m : ℝ) = n * ((m / n : ℕ) : ℝ) + ((m % n : ℕ) : ℝ) := by exact_mod_cast (Nat.div_add_mod m n).symm
    generalize m % n = r at *; generalize m / n = t at *; rw [this]; field_simp; ring
  rw [e, Real.cos_add_nat_mul_two_pi, Real.sin_add_nat_mul_two_pi]
  exact ⟨rfl, rfl⟩

omit [CLib] in
/-- the part common to the two directions: the outputs are stored after the whole input has been read -/
theorem R1x_pairs {K : RKind} {n : ℕ} (hn : n % 2 = 1) {is os : ℤ} {g : Ptr → Ptr → State → State} {Y0 : (Ptr → ℝ) → Ptr → ℝ} {Y1 Y2 : (Ptr → ℝ) → Ptr → ℕ → ℝ}
    (hg : ∀ I O st, g I O st = forN ((n - 1) / 2) (fun i0 s => (s.set (O + ((i0 + 1 : ℕ) : ℤ) * os) (Y1 st.mem I i0)).set (O + ((n - (i0 + 1) : ℕ) : ℤ) * os) (Y2 st.mem I i0)) (st.set O (Y0 st.mem I)))
    (h0 : ∀ m I, Y0 m I = ∑ j ∈ range n, rK K n j 0 * m (I + (j : ℤ) * is))
    (h1 : ∀ m I, ∀ i < (n - 1) / 2, Y1 m I i = ∑ j ∈ range n, rK K n j (i + 1) * m (I + (j : ℤ) * is))
    (h2 : ∀ m I, ∀ i < (n - 1) / 2, Y2 m I i = ∑ j ∈ range n, rK K n j (n - (i + 1)) * m (I + (j : ℤ) * is)) : R1x K n is os g := by
  intro ho I O st bI bO
  rw [hg]
  have z : O = O + ((0 : ℕ) : ℤ) * os := by rw [Nat.cast_zero, zero_mul, ptr_add_zero]
  have f0 := Fill.start st O os n fun k => ∑ j ∈ range n, rK K n j k * st.mem (I + (j : ℤ) * is)
  have f1 := f0.set ho (k := 0) (by omega) z (h0 st.mem I)
  have f2 := Fill.loop (S := fun i k => k = 0 ∨ 1 ≤ k ∧ k ≤ i ∨ n - i ≤ k ∧ k < n) (f1.mono (by intro k hk; beta_reduce; omega)) (N := (n - 1) / 2)
    (f := fun i0 s => (s.set (O + ((i0 + 1 : ℕ) : ℤ) * os) (Y1 st.mem I i0)).set (O + ((n - (i0 + 1) : ℕ) : ℤ) * os) (Y2 st.mem I i0)) (by
      intro i hi st1 f
      exact ((f.set ho (k := i + 1) (by omega) rfl (h1 st.mem I i hi)).set ho (k := n - (i + 1)) (by omega) rfl (h2 st.mem I i hi)).mono (by intro k hk; beta_reduce; omega))
  refine ⟨le_of_eq f2.next.symm, fun q _ hk => f2.out q hk, fun k hk => f2.val k hk (by omega)⟩

omit [CLib] in
theorem generic_w {cexp : ℕ → ℤ → ℝ × ℝ} (hc : ExactCexp cexp) {n : ℕ} (hn : n % 2 = 1) {i l : ℕ} (hi : i < (n - 1) / 2) (hl : l < (n - 1) / 2) :
    genericW cexp n (i * (n - 1) + 2 * l) = cos (2 * π * ((l + 1 : ℕ) : ℝ) * ((i + 1 : ℕ) : ℝ) / n) ∧
    genericW cexp n (i * (n - 1) + (2 * l + 1)) = sin (2 * π * ((l + 1 : ℕ) : ℝ) * ((i + 1 : ℕ) : ℝ) / n) := by
  obtain ⟨h1, h2⟩ := genericW_spec hc hn hi hl
  obtain ⟨m1, m2⟩ := cos_mod n ((l + 1) * (i + 1)) (by omega)
  rw [h1, h2, m1, m2, Nat.cast_mul, mul_assoc (2 * π)]
  exact ⟨rfl, rfl⟩

omit [CLib] in
theorem genericR2hc_ok {cexp : ℕ → ℤ → ℝ × ℝ} (hc : ExactCexp cexp) {n : ℕ} (hn : n % 2 = 1) {is os : ℤ} :
    R1x .R2HC00 n is os (genericR2hc (genericW cexp n) n is os) := by
  have hs : ∀ (mem : Ptr → ℝ) (I : Ptr), _ := fun mem I => hartleyR_spec (mem := mem) (n := n) (x := I) (xs := is)
    (u := fun i0 => mem (I + ((i0 + 1 : ℕ) : ℤ) * is) + mem (I + ((n - (i0 + 1) : ℕ) : ℤ) * is))
    (v := fun i0 => mem (I + ((n - (i0 + 1) : ℕ) : ℤ) * is) - mem (I + ((i0 + 1 : ℕ) : ℤ) * is)) (f := _) (fun _ _ => rfl)
  have z : ∀ (p : Ptr) (s : ℤ), p + ((0 : ℕ) : ℤ) * s = p := fun p s => by rw [Nat.cast_zero, zero_mul, ptr_add_zero]
  refine R1x_pairs hn (Y0 := fun m I => (hartleyR2hc m n I is).sr) (Y1 := fun m I i0 => (cdotR n (hartleyR2hc m n I is).o fun t => genericW cexp n (i0 * (n - 1) + t)).1)
    (Y2 := fun m I i0 => (cdotR n (hartleyR2hc m n I is).o fun t => genericW cexp n (i0 * (n - 1) + t)).2) (fun _ _ _ => rfl) ?_ ?_ ?_
  · intro m I
    rw [sum_pairs (by omega), if_neg (by omega), add_zero]
    refine (hs m I).2.2.trans ?_
    simp only [r2hc_zero, one_mul, z]
  · intro m I i hi
    rw [sum_pairs (by omega), if_neg (by omega), add_zero, (cdotR_spec _ _ _).1]
    congr 1
    · rw [show (hartleyR2hc m n I is).o 0 = m I from (hs m I).1, r2hc_lo _ (by omega), z]; simp
    · refine sum_congr rfl fun l hl => ?_
      have hl := mem_range.1 hl
      rw [show (hartleyR2hc m n I is).o (1 + 2 * l) = _ from ((hs m I).2.1 l hl).1, (generic_w hc hn hi hl).1, r2hc_lo _ (by omega), r2hc_lo _ (by omega), cos_swap (by omega) (by omega)]
      ring
  · intro m I i hi
    rw [sum_pairs (by omega), if_neg (by omega), add_zero, (cdotR_spec _ _ _).2, r2hc_hi _ (by omega) (by omega)]
    rw [Nat.cast_zero, mul_zero, zero_mul, zero_div, Real.sin_zero, neg_zero, zero_mul, zero_add]
    refine sum_congr rfl fun l hl => ?_
    have hl := mem_range.1 hl
    rw [show (hartleyR2hc m n I is).o (1 + 2 * l + 1) = _ from ((hs m I).2.1 l hl).2, (generic_w hc hn hi hl).2, r2hc_hi _ (by omega) (by omega),
      r2hc_hi _ (by omega) (by omega), sin_swap (by omega) (by omega)]
    ring

omit [CLib] in
theorem genericHc2r_ok {cexp : ℕ → ℤ → ℝ × ℝ} (hc : ExactCexp cexp) {n : ℕ} (hn : n % 2 = 1) {is os : ℤ} :
    R1x .HC2R00 n is os (genericHc2r (genericW cexp n) n is os) := by
  have hs : ∀ (mem : Ptr → ℝ) (I : Ptr), _ := fun mem I => hartleyR_spec (mem := mem) (n := n) (x := I) (xs := is)
    (u := fun i0 => mem (I + ((i0 + 1 : ℕ) : ℤ) * is) + mem (I + ((i0 + 1 : ℕ) : ℤ) * is))
    (v := fun i0 => mem (I + ((n - (i0 + 1) : ℕ) : ℤ) * is) + mem (I + ((n - (i0 + 1) : ℕ) : ℤ) * is)) (f := _) (fun _ _ => rfl)
  have z : ∀ (p : Ptr) (s : ℤ), p + ((0 : ℕ) : ℤ) * s = p := fun p s => by rw [Nat.cast_zero, zero_mul, ptr_add_zero]
  refine R1x_pairs hn (Y0 := fun m I => (hartleyHc2r m n I is).sr)
    (Y1 := fun m I i0 => (cdotR n (hartleyHc2r m n I is).o fun t => genericW cexp n (i0 * (n - 1) + t)).1 - (cdotR n (hartleyHc2r m n I is).o fun t => genericW cexp n (i0 * (n - 1) + t)).2)
    (Y2 := fun m I i0 => (cdotR n (hartleyHc2r m n I is).o fun t => genericW cexp n (i0 * (n - 1) + t)).1 + (cdotR n (hartleyHc2r m n I is).o fun t => genericW cexp n (i0 * (n - 1) + t)).2) (fun _ _ _ => rfl) ?_ ?_ ?_
  · intro m I
    rw [sum_pairs (by omega), if_neg (by omega), add_zero]
    refine (hs m I).2.2.trans ?_
    rw [hc2r_zero, one_mul, z]
    congr 1
    refine sum_congr rfl fun l hl => ?_
    have hl := mem_range.1 hl
    rw [hc2r_lo _ (by omega) (by omega), hc2r_hi _ (by omega) (by omega)]
    simp; ring
  · intro m I i hi
    rw [sum_pairs (by omega), if_neg (by omega), add_zero, (cdotR_spec _ _ _).1, (cdotR_spec _ _ _).2, add_sub_assoc, ← sum_sub_distrib]
    congr 1
    · rw [show (hartleyHc2r m n I is).o 0 = m I from (hs m I).1, hc2r_zero, z, one_mul]
    · refine sum_congr rfl fun l hl => ?_
      have hl := mem_range.1 hl
      rw [show (hartleyHc2r m n I is).o (1 + 2 * l) = _ from ((hs m I).2.1 l hl).1, show (hartleyHc2r m n I is).o (1 + 2 * l + 1) = _ from ((hs m I).2.1 l hl).2,
        (generic_w hc hn hi hl).1, (generic_w hc hn hi hl).2, hc2r_lo _ (by omega) (by omega), hc2r_hi _ (by omega) (by omega)]
      ring
  · intro m I i hi
    rw [sum_pairs (by omega), if_neg (by omega), add_zero, (cdotR_spec _ _ _).1, (cdotR_spec _ _ _).2, add_assoc, ← sum_add_distrib]
    congr 1
    · rw [show (hartleyHc2r m n I is).o 0 = m I from (hs m I).1, hc2r_zero, z, one_mul]
    · refine sum_congr rfl fun l hl => ?_
      have hl := mem_range.1 hl
      have e : ∀ a : ℝ, 2 * π * ((l + 1 : ℕ) : ℝ) * a / n = 2 * π * a * ((l + 1 : ℕ) : ℝ) / n := fun a => by ring
      rw [show (hartleyHc2r m n I is).o (1 + 2 * l) = _ from ((hs m I).2.1 l hl).1, show (hartleyHc2r m n I is).o (1 + 2 * l + 1) = _ from ((hs m I).2.1 l hl).2,
        (generic_w hc hn hi hl).1, (generic_w hc hn hi hl).2, hc2r_lo _ (by omega) (by omega), hc2r_hi _ (by omega) (by omega), e, e, cos_swap (by omega) (by omega), sin_swap (by omega) (by omega)]
      ring

theorem genericR_sound {cexp : ℕ → ℤ → ℝ × ℝ} (hc : ExactCexp cexp) {kind : RKind} (hkind : kind = .R2HC00 ∨ kind = .HC2R00) (taste : Taste) :
    (genericR cexp kind taste).Sound := by
  apply rdftSolver_sound
  intro p fl hk
  split
  rotate_left
  · exact good_nada
  rename_i d kd hsz hv
  split
  rotate_left
  · exact good_nada
  rename_i h
  obtain ⟨hn, -, -, rfl⟩ := h
  apply good_ret
  refine soundRdft (by simp [hv]) ?_
  rw [hsz, hv]
  rcases hkind with rfl | rfl
  · exact GOK_rank1R ((genericR2hc_ok hc hn).toR1 _ _)
  · exact GOK_rank1R ((genericHc2r_ok hc hn).toR1 _ _)

end FFTW.RdftS
