import Verif.Proofs.GenfftCodelets

namespace FFTW.Genfft
open Finset FFTW.Spec FFTW.Tensor FFTW.DftS

/-- a policy that works for size `n`, loading the powers `ex 0`, `ex 1`, ... of the twiddle factor -/
structure Policy.Good (P : Policy) (n : ℕ) (ex : ℕ → ℕ) : Prop where
  even : P.twidlen n / 2 * 2 = P.twidlen n
  table : ∀ (cexp : ℕ → ℤ → ℝ × ℝ) (N l : ℕ), (P.twdesc n).flatMap (Twiddle.emit cexp N n (l : ℤ)) =
    (List.range (P.twidlen n / 2)).flatMap fun t => [(cexp N ((l * ex t : ℕ) : ℤ)).1, (cexp N ((l * ex t : ℕ) : ℤ)).2]
  le : ∀ t < P.twidlen n / 2, ex t < n
  val : ∀ u : ℂ, conj u * u = 1 → ∀ w : ℕ → ℂ, (∀ t < P.twidlen n / 2, w t = u ^ ex t) →
    ∀ sign f i, i < n → P.bytwiddle n sign w f i = (if sign = 1 then u else conj u) ^ i * f i
  origin : ∀ p ∈ P.twdesc n, p.v = 0

theorem conj_mul (a b : ℂ) : conj (a * b) = conj a * conj b := map_mul (starRingEnd ℂ) a b
theorem conj_pow (a : ℂ) (i : ℕ) : conj (a ^ i) = conj a ^ i := map_pow (starRingEnd ℂ) a i

theorem cis_exact {cexp : ℕ → ℤ → ℝ × ℝ} (hc : ExactCexp cexp) {N a : ℕ} (h : a < N) : (⟨(cexp N a).1, (cexp N a).2⟩ : ℂ) = cis N a := by
  rw [hc N a (by omega) (by omega) (by exact_mod_cast h), cis_eq]

theorem twiddleArray_ok {cexp : ℕ → ℤ → ℝ × ℝ} (hc : ExactCexp cexp) {P : Policy} {n : ℕ} {ex : ℕ → ℕ} (hP : P.Good n ex) {m e l : ℕ} (hl : l < m)
    {t : ℕ} (ht : t < P.twidlen n / 2) :
    twiddleArray (P.twidlen n) (fun i => (Twiddle.compute cexp ⟨P.twdesc n, 1⟩ (n * m) n (m + e)).getD i 0) l t = cis (n * m) l ^ ex t := by
  have hlt : l * ex t < n * m := by
    have := hP.le t ht
    calc l * ex t ≤ m * ex t := Nat.mul_le_mul_right _ hl.le
      _ < m * n := Nat.mul_lt_mul_of_pos_left this (by omega)
      _ = n * m := mul_comm _ _
  have hlen : ∀ i : ℕ, ((P.twdesc n).flatMap (Twiddle.emit cexp (n * m) n ((i * 1 : ℕ) : ℤ))).length = P.twidlen n := by
    intro i
    rw [hP.table, List.length_flatMap]
    simp only [List.length_cons, List.length_nil, List.map_const', List.length_range, List.sum_replicate, smul_eq_mul]
    exact hP.even
  have key : ∀ j < 2, (Twiddle.compute cexp ⟨P.twdesc n, 1⟩ (n * m) n (m + e)).getD (P.twidlen n * l + (2 * t + j)) 0 =
      [(cexp (n * m) ((l * ex t : ℕ) : ℤ)).1, (cexp (n * m) ((l * ex t : ℕ) : ℤ)).2].getD j 0 := by
    intro j hj
    have := hP.even
    unfold Twiddle.compute
    dsimp only
    rw [show (m + e + 1 - 1) / 1 = m + e by simp, show P.twidlen n * l + (2 * t + j) = l * P.twidlen n + (t * 2 + j) by ring,
      getD_flatMap_range _ (P.twidlen n) hlen _ _ _ _ (by omega) (by omega), Nat.mul_one, hP.table,
      getD_flatMap_range (fun t => [(cexp (n * m) ((l * ex t : ℕ) : ℤ)).1, (cexp (n * m) ((l * ex t : ℕ) : ℤ)).2]) 2 (fun _ => rfl) 0 _ t j ht hj]
  unfold twiddleArray
  rw [array_eq ht]
  beta_reduce
  rw [key 1 (by omega), show P.twidlen n * l + 2 * t = P.twidlen n * l + (2 * t + 0) by rfl, key 0 (by omega)]
  rw [← cis_pow, show ((ex t : ℕ) : ℤ) * (l : ℤ) = ((l * ex t : ℕ) : ℤ) by push_cast; ring, ← cis_exact hc hlt]
  rfl

theorem twAlg_ok {cexp : ℕ → ℤ → ℝ × ℝ} (hc : ExactCexp cexp) {mp : Magic} (hmp : mp.Ok) {P : Policy} {n : ℕ} {ex : ℕ → ℕ} (hP : P.Good n ex) (dit : Bool)
    {m e l : ℕ} (hl : l < m) (x : Signal) {k : ℕ} (hk : k < n) :
    twAlg mp P dit n (twiddleArray (P.twidlen n) (fun i => (Twiddle.compute cexp ⟨P.twdesc n, 1⟩ (n * m) n (m + e)).getD i 0) l) x k = twStep dit n m l k x := by
  have hu : conj (cis (n * m) l) * cis (n * m) l = 1 := by
    rw [conj_cis, ← cis_add]; simp
  have hb := hP.val _ hu _ (fun t ht => twiddleArray_ok hc hP (e := e) hl ht) (-1)
  simp only [show ¬ ((-1 : ℤ) = 1) by decide, if_false] at hb
  have hω : ∀ i : ℕ, conj (cis (n * m) l) ^ i = ω (n * m) ^ (i * l) := by
    intro i
    rw [conj_cis, ← cis_pow, ω_cis]; congr 1; push_cast; ring
  unfold twAlg twStep
  cases dit
  · simp only [Bool.false_eq_true, if_false]
    rw [hb _ _ hk, hω, dft_ω hmp hk]
  · simp only [if_true]
    rw [dft_ω hmp hk]
    refine sum_congr rfl fun j hj => ?_
    rw [hb _ _ (mem_range.1 hj), hω]

/-- one column -/
theorem TwOK_column {cexp : ℕ → ℤ → ℝ × ℝ} (hc : ExactCexp cexp) {mp : Magic} (hmp : mp.Ok) {P : Policy} {n : ℕ} {ex : ℕ → ℕ} (hP : P.Good n ex) (dit : Bool)
    {m e l : ℕ} (hl : l < m) (rs ms δ : ℤ) :
    TwOK dit ⟨n, rs, rs, m, ms, 1, 0, 0, l, 1⟩ δ fun Q st => codeletStep n
      (twAlg mp P dit n (twiddleArray (P.twidlen n) (fun i => (Twiddle.compute cexp ⟨P.twdesc n, 1⟩ (n * m) n (m + e)).getD i 0) l))
      (Q + (l : ℤ) * ms) (Q + (l : ℤ) * ms + δ) (Q + (l : ℤ) * ms) (Q + (l : ℤ) * ms + δ) rs rs st := by
  rw [twOK_iff rfl rfl]
  intro hn Q st hQ
  have hinj : PInj δ rs n := by
    intro c c' k k' hc hc' hk hk' he
    have := tw_inj hn (l := l) (l' := l) (i := 0) (i' := 0) hc hk (by simp) (by simp) (by simp) hc' hk' (by simp) (by simp) (by simp) (by simp only; linarith)
    exact ⟨this.1, this.2.1⟩
  unfold codeletStep
  dsimp only
  obtain ⟨h1, h2⟩ := stores_ok (O := Q + (l : ℤ) * ms) hinj (twAlg mp P dit n (twiddleArray (P.twidlen n) (fun i => (Twiddle.compute cexp ⟨P.twdesc n, 1⟩ (n * m) n (m + e)).getD i 0) l)
    (array n fun j => ⟨st.mem (Q + (l : ℤ) * ms + (j : ℤ) * rs), st.mem (Q + (l : ℤ) * ms + δ + (j : ℤ) * rs)⟩)) st
  have ev : ∀ (μ : Ptr → ℝ) (k : ℕ), (val μ (Q + (l : ℤ) * ms) δ (k * rs) : ℂ) = val μ Q δ (k * rs + l * ms + (0 : ℕ) * 0) := by
    intro μ k
    apply Elt.dec_congr
    intro c _
    rw [Ptr.add_add]; congr 2; ring
  refine ⟨h1.mono ?_, ?_⟩
  · rintro q - ⟨c, k, hcc, hk, rfl⟩
    refine twLoc_iff.2 ⟨c, k, l, 0, hcc, hk, by simp, by simp, by simp, ?_⟩
    simp only [Ptr.add_add]; congr 1; ring
  · intro k l' i hk hl1 hl2 hi
    simp only at hk hl1 hl2 hi
    obtain rfl : l' = l := by omega
    obtain rfl : i = 0 := by omega
    rw [← ev, h2 k hk, twAlg_ok hc hmp hP dit hl _ hk]
    apply twStep_congr
    intro j hj
    rw [array_eq hj, ← ev, val_c, Ptr.add_add (Q + _)]

theorem TwOK_twiddle {cexp : ℕ → ℤ → ℝ × ℝ} (hc : ExactCexp cexp) {mp : Magic} (hmp : mp.Ok) {P : Policy} {n : ℕ} {ex : ℕ → ℕ} (hP : P.Good n ex) (dit : Bool)
    {m e mb me : ℕ} (h2 : me ≤ m) {drs dms rs ms : ℤ} (hr : okStride drs rs = true) (hm : okStride dms ms = true) (h1 : mb ≤ me) (δ : ℤ) :
    TwOK dit ⟨n, rs, rs, m, ms, 1, 0, 0, mb, me - mb⟩ δ fun Q =>
      (twiddleCodelet mp P dit n drs dms).k (Q + (mb : ℤ) * ms) (Q + δ + (mb : ℤ) * ms) ((twiddleCodelet mp P dit n drs dms).W cexp n m e) rs mb me ms := by
  have := TwOK_cols (dit := dit) (r := n) (rs := rs) (m := m) (ms := ms) (mb := mb) (mc := me - mb) (N := me - mb) (δ := δ) (a := fun j => mb + j) (s := fun _ => 1)
    (f := fun j Q st => codeletStep n
      (twAlg mp P dit n (twiddleArray (P.twidlen n) (fun i => (Twiddle.compute cexp ⟨P.twdesc n, 1⟩ (n * m) n (m + e)).getD i 0) (mb + j)))
      (Q + ((mb + j : ℕ) : ℤ) * ms) (Q + ((mb + j : ℕ) : ℤ) * ms + δ) (Q + ((mb + j : ℕ) : ℤ) * ms) (Q + ((mb + j : ℕ) : ℤ) * ms + δ) rs rs st)
    rfl (fun _ _ => rfl) rfl (fun j hj => TwOK_column hc hmp hP dit (by omega) rs ms δ)
  have ef : (fun Q : Ptr => (twiddleCodelet mp P dit n drs dms).k (Q + (mb : ℤ) * ms) (Q + δ + (mb : ℤ) * ms) ((twiddleCodelet mp P dit n drs dms).W cexp n m e) rs mb me ms) =
    fun Q : Ptr => forN (me - mb) fun j st => codeletStep n
      (twAlg mp P dit n (twiddleArray (P.twidlen n) (fun i => (Twiddle.compute cexp ⟨P.twdesc n, 1⟩ (n * m) n (m + e)).getD i 0) (mb + j)))
      (Q + ((mb + j : ℕ) : ℤ) * ms) (Q + ((mb + j : ℕ) : ℤ) * ms + δ) (Q + ((mb + j : ℕ) : ℤ) * ms) (Q + ((mb + j : ℕ) : ℤ) * ms + δ) rs rs st := by
    funext Q st
    refine forN_congr (fun i _ st => ?_) st
    have a1 : Q + (mb : ℤ) * ms + (i : ℤ) * ms = Q + ((mb + i : ℕ) : ℤ) * ms := by rw [Ptr.add_add]; congr 1; push_cast; ring
    have a2 : Q + δ + (mb : ℤ) * ms + (i : ℤ) * ms = Q + ((mb + i : ℕ) : ℤ) * ms + δ := by simp only [Ptr.add_add]; congr 1; push_cast; ring
    rw [fixed_eq hr, fixed_eq hm, a1, a2]
    rfl
  rw [ef]
  exact this

theorem twiddle_sound {cexp : ℕ → ℤ → ℝ × ℝ} (hc : ExactCexp cexp) (mp : Magic) (hmp : mp.Ok) (P : Policy) (n : ℕ) (ex : ℕ → ℕ) (hP : P.Good n ex) (dit : Bool) (drs dms : ℤ) :
    (twiddleCodelet mp P dit n drs dms).Sound cexp dit where
  run := by
    intro rio iio rs vs m mb me ms fl e hok h1 h2 _
    simp only [twiddleCodelet, Bool.and_eq_true] at hok
    exact TwOK_twiddle hc hmp hP dit h2 hok.1 hok.2 h1 (iio - rio)
  batch := by
    intro rio iio rs vs m mb me ms b fl hok _ q s _ h1 h2
    simp only [twiddleCodelet, Bool.and_eq_true] at hok
    have := TwOK_twiddle hc hmp hP dit (e := 0) (m := m) (mb := mb + q * b) (me := mb + q * b + s) (by omega) hok.1 hok.2 (by omega) (iio - rio)
    rw [Nat.add_sub_cancel_left] at this
    exact this
  extra := by
    intro rio iio rs vs m ms fl h1 h2
    have : (twiddleCodelet mp P dit n drs dms).okp rio iio rs vs m 0 m ms fl = (twiddleCodelet mp P dit n drs dms).okp rio iio rs vs m 0 (m - 1) ms fl := rfl
    rw [this, h2] at h1
    exact absurd h1 (by simp)

/-! ### square codelets -/

theorem stores2_ok {O : Ptr} {δ s t : ℤ} {n : ℕ} (h : ∀ c c' v v' i i' : ℕ, c < 2 → c' < 2 → v < n → v' < n → i < n → i' < n →
      (c : ℤ) * δ + ((v : ℤ) * t + (i : ℤ) * s) = (c' : ℤ) * δ + ((v' : ℤ) * t + (i' : ℤ) * s) → c = c' ∧ v = v' ∧ i = i') (X : ℕ → ℕ → ℂ) (st : State) (hO : O.blk < st.next) :
    let st' := forN n (fun v st => forN n (fun i st =>
      (st.set (O + ((v : ℤ) * t + (i : ℤ) * s)) (X i v).re).set (O + δ + ((v : ℤ) * t + (i : ℤ) * s)) (X i v).im) st) st
    Frame st st' (fun q => ∃ v < n, ∃ c i : ℕ, c < 2 ∧ i < n ∧ q = O + ((c : ℤ) * δ + ((v : ℤ) * t + (i : ℤ) * s))) ∧
    ∀ v < n, ∀ i < n, (val st'.mem O δ ((v : ℤ) * t + (i : ℤ) * s) : ℂ) = X i v := by
  dsimp only
  refine forN_local (W := fun v q => ∃ c i : ℕ, c < 2 ∧ i < n ∧ q = O + ((c : ℤ) * δ + ((v : ℤ) * t + (i : ℤ) * s)))
    (Q := fun v _ m2 => ∀ i < n, (val m2 O δ ((v : ℤ) * t + (i : ℤ) * s) : ℂ) = X i v) ?_ ?_ ?_ ?_
  · intro v hv st' _
    have hi : PInj δ s n := by
      intro c c' k k' hc hc' hk hk' he
      have := h c c' v v k k' hc hc' hv hv hk hk' (by linarith)
      exact ⟨this.1, this.2.2⟩
    obtain ⟨h1, h2⟩ := stores_ok (O := O + (v : ℤ) * t) hi (fun i => X i v) st'
    have e : ∀ st', forN n (fun i st => (st.set (O + ((v : ℤ) * t + (i : ℤ) * s)) (X i v).re).set (O + δ + ((v : ℤ) * t + (i : ℤ) * s)) (X i v).im) st' =
        forN n (fun k st => (st.set (O + (v : ℤ) * t + (k : ℤ) * s) (X k v).re).set (O + (v : ℤ) * t + δ + (k : ℤ) * s) (X k v).im) st' := by
      intro st'
      refine forN_congr (fun i _ st => ?_) st'
      simp only [Ptr.add_add]
      congr 2; ring
    rw [e]
    refine ⟨h1.mono ?_, ?_⟩
    · rintro q - ⟨c, k, hc, hk, rfl⟩
      exact ⟨c, k, hc, hk, by rw [Ptr.add_add]; congr 1; ring⟩
    · intro i hi
      rw [← h2 i hi]
      generalize (forN n _ st').mem = μ
      apply Elt.dec_congr
      intro c _
      rw [Ptr.add_add]; congr 2; ring
  · intro v hv m1 m2 m1' m2' _ h2 hq i hi
    rw [← hq i hi]
    apply Elt.dec_congr
    intro c hc
    exact (h2 _ ⟨c, i, hc, hi, rfl⟩).symm
  · rintro v hv v' hv' hne q ⟨c, i, hc, hi, rfl⟩ ⟨c', i', hc', hi', e⟩
    rw [Ptr.add_inj] at e
    exact hne (h c c' v v' i i' hc hc' hv hv' hi hi' e).2.1
  · rintro v hv q ⟨c, i, hc, hi, rfl⟩
    simpa using hO

/-- what a square step stores -/
def SqVal (t : TwP) (δ : ℤ) (P : Ptr) (m m' : Ptr → ℝ) : Prop :=
  ∀ k l i : ℕ, k < t.r → t.mb ≤ l → l < t.mb + t.mc → i < t.v →
    (val m' P δ (k * t.ors + l * t.ms + i * t.ovs) : ℂ) = twStep false t.r t.m l k fun j => val m P δ (j * t.irs + l * t.ms + i * t.ivs)

theorem twidsq_sound {cexp : ℕ → ℤ → ℝ × ℝ} (hc : ExactCexp cexp) (mp : Magic) (hmp : mp.Ok) (P : Policy) (n : ℕ) (ex : ℕ → ℕ) (hP : P.Good n ex) (drs dvs : ℤ) :
    (twidsqCodelet mp P n drs dvs 0).Sound cexp := by
  intro rio iio rs vs m mb me ms fl hok h1 h2
  simp only [twidsqCodelet, Bool.and_eq_true] at hok ⊢
  rw [fixed_eq hok.1.1, fixed_eq hok.1.2]
  generalize iio - rio = δ
  intro hn _ Q st hQ
  have key := forN_local (N := me - mb) (st := st)
    (f := fun i st => twidsqStep n (twAlg mp P false n (twiddleArray (P.twidlen n) (fun i => (Twiddle.compute cexp ⟨P.twdesc n, 1⟩ (n * m) n m).getD i 0) (mb + i)))
      (Q + (mb : ℤ) * ms + (i : ℤ) * ms) (Q + δ + (mb : ℤ) * ms + (i : ℤ) * ms) rs vs st)
    (W := fun i => TwLoc ⟨n, rs, vs, m, ms, n, vs, rs, mb + i, 1⟩ δ Q)
    (Q := fun i m1 m2 => SqVal ⟨n, rs, vs, m, ms, n, vs, rs, mb + i, 1⟩ δ Q m1 m2) ?_ ?_ ?_ ?_
  · obtain ⟨f1, f2⟩ := key
    refine ⟨f1.mono fun q _ ⟨i, hi, hq⟩ => ?_, ?_⟩
    · obtain ⟨c, j, l, i', hc, hj, hl, hl2, hi', rfl⟩ := twLoc_iff.1 hq
      simp only at hl hl2
      exact twLoc_iff.2 ⟨c, j, l, i', hc, hj, by simp only; omega, by simp only; omega, hi', rfl⟩
    · intro k l i hk hl hl2 hi
      simp only at hl hl2
      exact f2 (l - mb) (by omega) k l i hk (by simp only; omega) (by simp only; omega) hi
  · intro i hi st' hst
    set B : Ptr := Q + ((mb + i : ℕ) : ℤ) * ms with hB
    have e1 : Q + (mb : ℤ) * ms + (i : ℤ) * ms = B := by rw [hB, Ptr.add_add]; congr 1; push_cast; ring
    have e2 : Q + δ + (mb : ℤ) * ms + (i : ℤ) * ms = B + δ := by rw [hB]; simp only [Ptr.add_add]; congr 1; push_cast; ring
    simp only [e1, e2]
    unfold twidsqStep
    dsimp only
    obtain ⟨g1, g2⟩ := stores2_ok (O := B) (δ := δ) (s := rs) (t := vs) (n := n) (by
      intro c c' v v' j j' hc hc' hv hv' hj hj' he
      have := tw_inj hn (l := mb + i) (l' := mb + i) hc hv (by simp) (by simp only; omega) hj hc' hv' (by simp) (by simp only; omega) hj' (by simp only; linarith)
      exact ⟨this.1, this.2.1, this.2.2.2⟩)
      (fun v => twAlg mp P false n (twiddleArray (P.twidlen n) (fun i => (Twiddle.compute cexp ⟨P.twdesc n, 1⟩ (n * m) n m).getD i 0) (mb + i))
        (array n fun j => ⟨st'.mem (B + ((v : ℤ) * vs + (j : ℤ) * rs)), st'.mem (B + δ + ((v : ℤ) * vs + (j : ℤ) * rs))⟩)) st' (by rw [hB]; simp only [Ptr.add_blk]; omega)
    have ev : ∀ (μ : Ptr → ℝ) (o : ℤ), (val μ B δ o : ℂ) = val μ Q δ (o + ((mb + i : ℕ) : ℤ) * ms) := by
      intro μ o
      apply Elt.dec_congr
      intro c _
      rw [hB, Ptr.add_add]; congr 2; ring
    refine ⟨g1.mono ?_, ?_⟩
    · rintro q - ⟨v, hv, c, j, hc, hj, rfl⟩
      refine twLoc_iff.2 ⟨c, v, mb + i, j, hc, hv, by simp, by simp, hj, ?_⟩
      rw [hB, Ptr.add_add]; congr 1; simp only; ring
    · intro k l v hk hl1 hl2 hv
      simp only at hk hl1 hl2 hv ⊢
      obtain rfl : l = mb + i := by omega
      have := (g2 k hk v hv).trans (twAlg_ok (e := 0) hc hmp hP false (show mb + i < m by omega) _ hk)
      rw [ev] at this
      rw [show (k : ℤ) * vs + ((mb + i : ℕ) : ℤ) * ms + (v : ℤ) * rs = (k : ℤ) * vs + (v : ℤ) * rs + ((mb + i : ℕ) : ℤ) * ms by ring, this]
      apply twStep_congr
      intro j hj
      rw [array_eq hj, show (j : ℤ) * rs + ((mb + i : ℕ) : ℤ) * ms + (v : ℤ) * vs = (v : ℤ) * vs + (j : ℤ) * rs + ((mb + i : ℕ) : ℤ) * ms by ring, ← ev, val_c, Ptr.add_add B]
  · intro i hi m1 m2 m1' m2' q1 q2 hq k l v hk hl1 hl2 hv
    have r2 : (val m2' Q δ (k * vs + l * ms + v * rs) : ℂ) = val m2 Q δ (k * vs + l * ms + v * rs) :=
      Elt.dec_congr _ _ fun c hc => (q2 _ (twLoc_iff.2 ⟨c, k, l, v, hc, hk, hl1, hl2, hv, rfl⟩)).symm
    have r3 := hq k l v hk hl1 hl2 hv
    simp only at r3 ⊢
    rw [r2, r3]
    apply twStep_congr
    intro j hj
    refine Elt.dec_congr _ _ fun c hc => q1 _ (twLoc_iff.2 ⟨c, v, l, j, hc, hv, hl1, hl2, hj, ?_⟩)
    simp only; congr 1; ring
  · intro i hi j hj hij q hq hq'
    obtain ⟨c, k, l, v, hc, hk, hl, hl2, hv, rfl⟩ := twLoc_iff.1 hq
    obtain ⟨c', k', l', v', hc', hk', hl', hl2', hv', e⟩ := twLoc_iff.1 hq'
    simp only [Ptr.add_inj] at e
    simp only at hl hl2 hl' hl2'
    have e2 := (tw_inj hn (l := l) (l' := l') hc hk (by simp only; omega) (by simp only; omega) hv hc' hk' (by simp only; omega) (by simp only; omega) hv' (by simp only; linarith)).2.2.1
    omega
  · intro j hj q hq
    obtain ⟨b, _, rfl⟩ := hq
    simpa using hQ

end FFTW.Genfft
