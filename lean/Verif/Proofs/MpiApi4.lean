import Verif.Proofs.MpiApi3

/-! one-dimensional transforms: the user's layout and the planner's -/

namespace FFTW.Mpi
open Tensor Spec RdftS
variable [CLib]

theorem numBlocks_of_le {n b k : ℕ} (hb : 0 < b) (h : n ≤ k * b) : numBlocks n b ≤ k := by
  unfold numBlocks
  rw [← Nat.lt_add_one_iff, Nat.div_lt_iff_lt_mul hb, Nat.add_mul, Nat.one_mul]
  omega

theorem default_mul (n v k : ℕ) (hk : 0 < k) : defaultBlock (n * v) k ≤ defaultBlock n k * v := by
  rcases Nat.eq_zero_or_pos v with rfl | hv
  · rw [Nat.mul_zero, Nat.mul_zero]
    unfold defaultBlock
    rw [Nat.zero_add, Nat.div_eq_of_lt (by omega)]
  · have h := defaultBlock_le (n := n) hk
    have h2 : n * v ≤ k * (defaultBlock n k * v) := by rw [← Nat.mul_assoc]; exact Nat.mul_le_mul_right v h
    generalize defaultBlock n k * v = y at h2 ⊢
    generalize n * v = x at h2 ⊢
    refine Nat.lt_add_one_iff.1 ?_
    unfold defaultBlock
    rw [Nat.div_lt_iff_lt_mul hk, Nat.add_mul, Nat.one_mul, Nat.mul_comm y]
    omega

theorem block_scale (m b w r : ℕ) : block (m * r) (b * r) w = block m b w * r := by
  rw [block_eq, block_eq, ← Nat.mul_assoc, ← Nat.sub_mul]
  exact (Nat.mul_min_mul_right _ _ _)

theorem cell_place (n b blk q : ℕ) : cell b blk (q / b) (q % b) = place [(n, b * blk)] [q] := by
  rw [place1]
  unfold cell
  rw [Nat.div_div_eq_div_mul, Nat.mod_mul, Nat.mul_comm (q / b % blk) b, Nat.add_comm]

theorem mix {q r m : ℕ} (h : q < r * m) : (q % m * r + q / m) % r = q / m ∧ (q % m * r + q / m) / r = q % m ∧ q % m * r + q / m < r * m := by
  have hm : 0 < m := by rcases Nat.eq_zero_or_pos m with rfl | h1; omega; exact h1
  have h1 : q / m < r := Nat.div_lt_of_lt_mul (by rwa [Nat.mul_comm])
  have h2 : q % m < m := Nat.mod_lt _ hm
  refine ⟨?_, ?_, ?_⟩
  · rw [Nat.add_comm, Nat.add_mul_mod_self_right, Nat.mod_eq_of_lt h1]
  · have : 0 < r := Nat.lt_of_le_of_lt (Nat.zero_le _) h1
    rw [Nat.add_comm, Nat.add_mul_div_right _ _ this, Nat.div_eq_of_lt h1, Nat.zero_add]
  · calc q % m * r + q / m < q % m * r + r := by omega
      _ = (q % m + 1) * r := by ring
      _ ≤ m * r := Nat.mul_le_mul_right r h2
      _ = r * m := Nat.mul_comm _ _

/-- `mix` is one-to-one: the element `j` is at `j % r * m + j / r` -/
theorem mix_inv {j r m : ℕ} (h : j < r * m) : (j % r * m + j / r) % m * r + (j % r * m + j / r) / m = j := by
  obtain ⟨h1, h2, _⟩ := mix (q := j) (r := m) (m := r) (by rwa [Nat.mul_comm])
  rw [h1, h2, Nat.div_add_mod']

theorem scrambleIn_none {scr : Bool} {npes : ℕ} {bwd : Bool} {n q : ℕ} (h : chooseRadix n npes bwd = none) : scrambleIn scr npes bwd [n] [q] = [q] := by
  simp only [scrambleIn, h]
theorem scrambleIn_some {scr : Bool} {npes : ℕ} {bwd : Bool} {n q r m : ℕ} (h : chooseRadix n npes bwd = some (r, m)) :
    scrambleIn scr npes bwd [n] [q] = if scr then [q % m * r + q / m] else [q] := by
  simp only [scrambleIn, h]
theorem scrambleOut_none {scr : Bool} {npes : ℕ} {bwd : Bool} {n q : ℕ} (h : chooseRadix n npes bwd = none) : scrambleOut scr npes bwd [n] [q] = [q] := by
  simp only [scrambleOut, h]
theorem scrambleOut_some {scr : Bool} {npes : ℕ} {bwd : Bool} {n q r m : ℕ} (h : chooseRadix n npes bwd = some (r, m)) :
    scrambleOut scr npes bwd [n] [q] = if scr then [q % r * m + q / r] else [q] := by
  simp only [scrambleOut, h]

/-- a one-dimensional problem with default blocks `B` -/
structure Made1 (p : MDftP) (n B : ℕ) : Prop where
  sz : p.sz = [⟨n, B, B⟩]
  n1 : 1 < n
  B0 : 0 < B ∧ B ≤ n
  fl : p.flags.onlyScrambled = true
  pes : numBlocks n B ≤ p.comm.length
  self : B = n → n.Prime ∨ p.comm.length ≤ 1
  vn : 0 < p.vn

theorem prime_radix {n npes : ℕ} {bwd : Bool} (h : n.Prime) : chooseRadix n npes bwd = none := by
  rcases hc : chooseRadix n npes bwd with _ | ⟨r, m⟩
  · rfl
  · obtain ⟨h1, h2, h3⟩ := chooseRadix_spec h.pos hc
    exfalso
    rcases (Nat.dvd_prime h).1 (Dvd.intro m h1) with h4 | h4
    · omega
    · subst h4
      have : r * m = r * 1 := by omega
      have := Nat.eq_of_mul_eq_mul_left (by omega) this
      omega

section
variable {p : MDftP} {n B : ℕ}

theorem Made1.six (h : Made1 p n B) : p.sixStep = if p.vn < p.comm.length ∨ p.flags ≠ {} then chooseRadix n p.comm.length p.bwd else none := by
  unfold MDftP.sixStep
  rw [h.sz]
  simp only [h.fl, true_and]
  by_cases hc : p.vn < p.comm.length ∨ p.flags ≠ {}
  · rw [if_pos hc]
    by_cases h2 : p.flags = {} ∧ B = n ∧ B = n
    · rw [if_neg (by tauto)]
      rcases h.self h2.2.1 with h3 | h3
      · rw [prime_radix h3]
      · rcases hc with h4 | h4
        · have := h.vn; omega
        · exact absurd h2.1 h4
    · rw [if_pos ⟨hc, h2⟩]
  · rw [if_neg hc, if_neg (by tauto)]

/-- the block size of the input, as `local_size_guru` reports it -/
def bIn (p : MDftP) (B : ℕ) : ℕ :=
  match p.sixStep with
  | some (r, m) => if p.flags.scrambledIn then defaultBlock r p.comm.length * m else r * defaultBlock m p.comm.length
  | none => B
/-- of the output -/
def bOut (p : MDftP) (B : ℕ) : ℕ :=
  match p.sixStep with
  | some (r, m) => if p.flags.scrambledOut then r * defaultBlock m p.comm.length else defaultBlock r p.comm.length * m
  | none => B
/-- the space, apart from that for input and output -/
def extra1 (p : MDftP) (n me : ℕ) : ℕ :=
  match p.sixStep with
  | some (r, m) => max (if p.flags.scrambledIn then 1 else max 1 (defaultBlock r p.comm.length * m)) (if p.flags.scrambledOut then 1 else r * defaultBlock m p.comm.length)
  | none => if p.vn < p.comm.length ∨ p.flags ≠ {} then 1 else max 1 (ceilDiv (localSizes me [(n, n), (p.vn, defaultBlock p.vn p.comm.length)]).1.prod p.vn)

theorem Made1.guru (h : Made1 p n B) {d : ADim} (hd : defaultSz [d] p.comm.length = [⟨n, B, B⟩]) (me : ℕ) :
    localSizeGuru [d] p.vn p.comm.length me p.bwd p.flags =
      ⟨max (extra1 p n me) (max (localSizes me [(n, bIn p B)]).1.prod (localSizes me [(n, bOut p B)]).1.prod) * p.vn, (localSizes me [(n, bIn p B)]).1, (localSizes me [(n, bIn p B)]).2,
        (localSizes me [(n, bOut p B)]).1, (localSizes me [(n, bOut p B)]).2⟩ := by
  unfold localSizeGuru
  rw [if_neg (by simp), hd]
  simp only
  unfold bIn bOut extra1
  rw [h.six]
  by_cases hc : p.vn < p.comm.length ∨ p.flags ≠ {}
  · rw [if_neg (by rintro ⟨h1, h2⟩; rcases hc with h3 | h3; omega; exact h3 h2), if_pos hc]
    rcases hr : chooseRadix n p.comm.length p.bwd with _ | ⟨r, m⟩
    · simp only [if_pos hc]
      rfl
    · simp only
      cases p.flags.scrambledIn <;> cases p.flags.scrambledOut <;>
        simp [distr, DDim.b, prodL]
  · rw [if_pos (by push Not at hc; exact hc), if_neg hc]
    simp only [if_neg hc]
    rfl

theorem Made1.inAt (h : Made1 p n B) {q : ℕ} (hq : q < n) :
    p.inAt (scrambleIn p.flags.scrambledIn p.comm.length p.bwd [n] [q]) = place [(n, bIn p B)] [q] := by
  unfold MDftP.inAt bIn
  have hs := h.six
  rcases hsix : p.sixStep with _ | ⟨r, m⟩
  · rcases hr : chooseRadix n p.comm.length p.bwd with _ | ⟨r, m⟩
    · rw [scrambleIn_none hr]
      simp only [MDftP.inD, h.sz]
      rfl
    · have hf : p.flags = {} := by
        by_contra hf
        rw [hsix, if_pos (.inr hf), hr] at hs
        simp at hs
      have : p.flags.scrambledIn = false := by rw [hf]
      rw [scrambleIn_some hr, this]
      simp only [MDftP.inD, h.sz]
      rfl
  · rw [hsix] at hs
    split at hs
    · have hrm := chooseRadix_spec (by have := h.n1; omega) hs.symm
      rw [scrambleIn_some hs.symm]
      cases p.flags.scrambledIn with
      | false =>
        simp only [Bool.false_eq_true, if_false]
        exact cell_place n r _ q
      | true =>
        simp only [if_true]
        obtain ⟨e1, e2, _⟩ := mix (q := q) (r := r) (m := m) (by rw [hrm.1]; exact hq)
        rw [e1, e2, cell_place n m, Nat.mul_comm m]
    · simp at hs

theorem Made1.outAt (h : Made1 p n B) {q : ℕ} (hq : q < n) :
    p.outAt (scrambleOut p.flags.scrambledOut p.comm.length p.bwd [n] [q]) = place [(n, bOut p B)] [q] := by
  have hfl := h.fl
  unfold MFlags.onlyScrambled at hfl
  have ht : p.flags.transposedOut = false := by
    cases hh : p.flags.transposedOut
    · rfl
    · simp [hh] at hfl
  unfold MDftP.outAt bOut
  have hs := h.six
  rcases hsix : p.sixStep with _ | ⟨r, m⟩
  · simp only [ht]
    rcases hr : chooseRadix n p.comm.length p.bwd with _ | ⟨r, m⟩
    · rw [scrambleOut_none hr]
      simp only [MDftP.outD, h.sz, ht]
      rfl
    · have hf : p.flags = {} := by
        by_contra hf
        rw [hsix, if_pos (.inr hf), hr] at hs
        simp at hs
      have : p.flags.scrambledOut = false := by rw [hf]
      rw [scrambleOut_some hr, this]
      simp only [MDftP.outD, h.sz, ht]
      rfl
  · rw [hsix] at hs
    split at hs
    · have hrm := chooseRadix_spec (by have := h.n1; omega) hs.symm
      rw [scrambleOut_some hs.symm]
      cases p.flags.scrambledOut with
      | false =>
        simp only [Bool.false_eq_true, if_false]
        rw [Nat.mul_comm]
        exact cell_place n m _ q
      | true =>
        simp only [if_true]
        obtain ⟨e1, e2, _⟩ := mix (q := q) (r := m) (m := r) (by rw [Nat.mul_comm, hrm.1]; exact hq)
        rw [e1, e2, cell_place n r]
    · simp at hs

/-- every element is somewhere -/
theorem Made1.onto (h : Made1 p n B) {j : ℕ} (hj : j < n) : ∃ q < n, scrambleIn p.flags.scrambledIn p.comm.length p.bwd [n] [q] = [j] := by
  rcases hr : chooseRadix n p.comm.length p.bwd with _ | ⟨r, m⟩
  · exact ⟨j, hj, scrambleIn_none hr⟩
  · simp only [scrambleIn_some hr]
    cases p.flags.scrambledIn with
    | false => exact ⟨j, hj, by simp⟩
    | true =>
      have hrm := chooseRadix_spec (by have := h.n1; omega) hr
      refine ⟨j % r * m + j / r, ?_, ?_⟩
      · have := (mix (q := j) (r := m) (m := r) (by rw [Nat.mul_comm, hrm.1]; exact hj)).2.2
        rwa [Nat.mul_comm m r, hrm.1] at this
      · simp only [if_true]
        rw [mix_inv (by rw [hrm.1]; exact hj)]

theorem Made1.ltOut (h : Made1 p n B) {q : ℕ} (hq : q < n) : Index [n] (scrambleOut p.flags.scrambledOut p.comm.length p.bwd [n] [q]) := by
  rcases hr : chooseRadix n p.comm.length p.bwd with _ | ⟨r, m⟩
  · rw [scrambleOut_none hr]; exact index1 hq
  · rw [scrambleOut_some hr]
    cases p.flags.scrambledOut with
    | false => exact index1 hq
    | true =>
      have hrm := chooseRadix_spec (by have := h.n1; omega) hr
      refine index1 ?_
      have := (mix (q := q) (r := m) (m := r) (by rw [Nat.mul_comm, hrm.1]; exact hq)).2.2
      rwa [Nat.mul_comm m r, hrm.1] at this

theorem Made1.bIn_pos (h : Made1 p n B) : 0 < bIn p B ∧ 0 < bOut p B ∧ numBlocks n (bIn p B) ≤ p.comm.length ∧ numBlocks n (bOut p B) ≤ p.comm.length := by
  have hs := h.six
  have hl : 0 < p.comm.length := lt_of_lt_of_le (numBlocks_pos (by have := h.n1; omega) h.B0.1) h.pes
  unfold bIn bOut
  rcases hsix : p.sixStep with _ | ⟨r, m⟩
  · exact ⟨h.B0.1, h.B0.1, h.pes, h.pes⟩
  · rw [hsix] at hs
    split at hs
    · have hrm := chooseRadix_spec (by have := h.n1; omega) hs.symm
      have p1 := defaultBlock_pos (n := r) (by omega) hl
      have p2 := defaultBlock_pos (n := m) (by omega) hl
      have q1 : 0 < defaultBlock r p.comm.length * m := Nat.mul_pos p1 (by omega)
      have q2 : 0 < r * defaultBlock m p.comm.length := Nat.mul_pos (by omega) p2
      have n1 : numBlocks n (defaultBlock r p.comm.length * m) ≤ p.comm.length := by
        refine numBlocks_of_le q1 ?_
        rw [← Nat.mul_assoc, ← hrm.1]
        exact Nat.mul_le_mul_right m (defaultBlock_le hl)
      have n2 : numBlocks n (r * defaultBlock m p.comm.length) ≤ p.comm.length := by
        refine numBlocks_of_le q2 ?_
        rw [Nat.mul_left_comm, ← hrm.1]
        exact Nat.mul_le_mul_left r (defaultBlock_le hl)
      simp only
      refine ⟨?_, ?_, ?_, ?_⟩ <;> split <;> assumption
    · simp at hs

theorem Made1.ok (h : Made1 p n B) (hnd : p.comm.Nodup) (hap : MApart p.comm p.space p.inpl p.I p.O)
    (hN : ∀ me < p.comm.length, 2 * (max (extra1 p n me) (max (localSizes me [(n, bIn p B)]).1.prod (localSizes me [(n, bOut p B)]).1.prod) * p.vn) ≤ p.space (p.comm.at me))
    (hrow : p.flags.scrambledIn ≠ p.flags.scrambledOut → ∀ r m, chooseRadix n p.comm.length p.bwd = some (r, m) → ∀ me < p.comm.length, 2 * (max r m * p.vn) ≤ p.space (p.comm.at me))
    (fl : Flags) : p.Ok fl := by
  have hl : 0 < p.comm.length := lt_of_lt_of_le (numBlocks_pos (by have := h.n1; omega) h.B0.1) h.pes
  have hn1 := h.n1
  have hfl := h.fl
  unfold MFlags.onlyScrambled at hfl
  have ht : p.flags.transposedOut = false := by
    cases hh : p.flags.transposedOut
    · rfl
    · simp [hh] at hfl
  have hbv : p.flags.bigvecOnly = false := by
    cases hh : p.flags.bigvecOnly
    · rfl
    · simp [hh] at hfl
  have room : ∀ {x me : ℕ}, me < p.comm.length → x ≤ max (extra1 p n me) (max (localSizes me [(n, bIn p B)]).1.prod (localSizes me [(n, bOut p B)]).1.prod) → x * p.vn * 2 ≤ p.space (p.comm.at me) := by
    intro x me hme hx
    have := hN me hme
    have := Nat.mul_le_mul_right p.vn hx
    omega
  have inr : ∀ {me : ℕ}, me < p.comm.length → block n (bIn p B) me * p.vn * 2 ≤ p.space (p.comm.at me) := by
    intro me hme
    refine room hme (le_trans ?_ ((le_max_left _ _).trans (le_max_right _ _)))
    simpa using (simple_one n (bIn p B)).le h.bIn_pos.1 me
  have outr : ∀ {me : ℕ}, me < p.comm.length → block n (bOut p B) me * p.vn * 2 ≤ p.space (p.comm.at me) := by
    intro me hme
    refine room hme (le_trans ?_ ((le_max_right _ _).trans (le_max_right _ _)))
    simpa using (simple_one n (bOut p B)).le h.bIn_pos.2.1 me
  have hs := h.six
  refine ⟨hnd, by rw [h.sz]; simp, h.vn, ?_, ?_, ?_, ?_, ?_, ?_, ?_, ?_, hap⟩
  · intro d hd
    rw [h.sz, List.mem_singleton] at hd
    subst hd
    exact ⟨h.n1, h.B0.1, h.B0.2, h.B0.1, h.B0.2⟩
  · rw [h.sz]; simpa using h.pes
  · rw [h.sz]; simpa using h.pes
  · intro r hr
    have := inr hr
    refine le_trans (le_of_eq ?_) this
    unfold MDftP.inSize bIn
    rcases hsix : p.sixStep with _ | ⟨r', m⟩
    · simp only [MDftP.inD, h.sz]
      have := localSize_cons (n := n) (b := B) (ns := []) (by simp) r
      rw [show ((n, B) :: whole [] : List (ℕ × ℕ)) = [(n, B)] from rfl] at this
      simp only [List.map_cons, List.map_nil]
      rw [this]; simp
    · rw [hsix] at hs
      split at hs
      · have hrm := chooseRadix_spec (by omega) hs.symm
        simp only
        split
        · rw [← block_scale, hrm.1]
        · rw [← block_scale, Nat.mul_comm m r', hrm.1, Nat.mul_comm r']
      · simp at hs
  · intro r hr
    have := outr hr
    refine le_trans (le_of_eq ?_) this
    unfold MDftP.outSize bOut
    rcases hsix : p.sixStep with _ | ⟨r', m⟩
    · simp only [MDftP.outD, h.sz, ht]
      have := localSize_cons (n := n) (b := B) (ns := []) (by simp) r
      rw [show ((n, B) :: whole [] : List (ℕ × ℕ)) = [(n, B)] from rfl] at this
      simp only [List.map_cons, List.map_nil, Bool.false_eq_true, if_false]
      rw [this]; simp
    · rw [hsix] at hs
      split at hs
      · have hrm := chooseRadix_spec (by omega) hs.symm
        simp only
        split
        · rw [← block_scale, Nat.mul_comm m r', hrm.1, Nat.mul_comm r']
        · rw [← block_scale, hrm.1]
      · simp at hs
  · intro _ hf d l hsz _ hcond r hr
    rw [h.sz] at hsz
    obtain ⟨rfl, rfl⟩ := List.cons.inj hsz
    have hv : p.comm.length ≤ p.vn := by
      rcases hcond rfl with h1 | h1
      · exact h1
      · rw [hbv] at h1; simp at h1
    have hf' : p.flags = {} := by
      have e : p.flags = { p.flags with bigvecOnly := false } := by rw [← hbv]
      exact e.trans hf
    have hc : ¬ (p.vn < p.comm.length ∨ p.flags ≠ {}) := by
      rintro (h1 | h1)
      · omega
      · exact h1 hf'
    rw [if_neg hc] at hs
    have hx : extra1 p n r = max 1 (ceilDiv (localSizes r [(n, n), (p.vn, defaultBlock p.vn p.comm.length)]).1.prod p.vn) := by
      unfold extra1
      rw [hs]
      simp only [if_neg hc]
    have k := hN r hr
    have k2 : n * block p.vn (defaultBlock p.vn p.comm.length) r ≤ extra1 p n r * p.vn := by
      rw [hx]
      refine le_trans ?_ (Nat.mul_le_mul_right _ (le_max_right _ _))
      refine le_trans ?_ (ceilDiv_le h.vn)
      have sp := (simple_sizes true p.vn (defaultBlock p.vn p.comm.length) (n' := n) (ns := []) (by simp; omega)).le (defaultBlock_pos h.vn hl) r
      rw [prod_flip] at sp
      refine le_trans (le_of_eq ?_) sp
      simp [Nat.mul_comm]
    have k3 : extra1 p n r * p.vn ≤ max (extra1 p n r) (max (localSizes r [(n, bIn p B)]).1.prod (localSizes r [(n, bOut p B)]).1.prod) * p.vn := Nat.mul_le_mul_right _ (le_max_left _ _)
    simp only [List.map_nil, List.prod_nil, Nat.one_mul]
    omega
  · intro r m hsix hscr me hme
    rw [hsix] at hs
    split at hs
    swap
    · simp at hs
    have hrm := chooseRadix_spec (by omega) hs.symm
    have hx : extra1 p n me = max (if p.flags.scrambledIn then 1 else max 1 (defaultBlock r p.comm.length * m)) (if p.flags.scrambledOut then 1 else r * defaultBlock m p.comm.length) := by
      unfold extra1
      rw [hsix]
    have hrb := defaultBlock_pos (n := r) (k := p.comm.length) (by omega) hl
    have hmb := defaultBlock_pos (n := m) (k := p.comm.length) (by omega) hl
    have viaIn : p.flags.scrambledIn = false → ∀ {x}, x ≤ defaultBlock r p.comm.length * m → x * p.vn * 2 ≤ p.space (p.comm.at me) := by
      intro hi x hxx
      refine room hme (le_trans ?_ (le_max_left _ _))
      rw [hx, hi]
      exact hxx.trans ((le_max_right _ _).trans (le_max_left _ _))
    have viaOut : p.flags.scrambledOut = false → ∀ {x}, x ≤ r * defaultBlock m p.comm.length → x * p.vn * 2 ≤ p.space (p.comm.at me) := by
      intro hi x hxx
      refine room hme (le_trans ?_ (le_max_left _ _))
      rw [hx, hi]
      exact hxx.trans (le_max_right _ _)
    have bI : p.flags.scrambledIn = true → block r (defaultBlock r p.comm.length) me * m * p.vn * 2 ≤ p.space (p.comm.at me) := by
      intro hi
      have := inr hme
      unfold bIn at this
      rw [hsix] at this
      simp only [hi, if_true] at this
      rw [← block_scale, hrm.1]
      exact this
    have bI' : p.flags.scrambledIn = false → block m (defaultBlock m p.comm.length) me * r * p.vn * 2 ≤ p.space (p.comm.at me) := by
      intro hi
      have := inr hme
      unfold bIn at this
      rw [hsix] at this
      simp only [hi, Bool.false_eq_true, if_false] at this
      rw [← block_scale, Nat.mul_comm m r, hrm.1, Nat.mul_comm _ r]
      exact this
    have row : ∀ x, (x = r ∨ x = m) → p.flags.scrambledIn ≠ p.flags.scrambledOut → x * p.vn * 2 ≤ p.space (p.comm.at me) := by
      intro x hxx hne
      have := hrow hne r m hs.symm me hme
      have h2 : x * p.vn ≤ max r m * p.vn := Nat.mul_le_mul_right _ (by rcases hxx with rfl | rfl; exact le_max_left _ _; exact le_max_right _ _)
      omega
    refine ⟨?_, ?_, ?_, ?_⟩
    · cases hi : p.flags.scrambledIn
      · exact bI' hi
      · have ho : p.flags.scrambledOut = false := by rcases hscr with h1 | h1; rw [hi] at h1; simp at h1; exact h1
        exact viaOut ho (by rw [Nat.mul_comm]; exact Nat.mul_le_mul_left _ (block_le _ _ _))
    · cases hi : p.flags.scrambledIn
      · exact viaIn hi (Nat.mul_le_mul_right _ (block_le _ _ _))
      · exact bI hi
    · intro hi
      refine ⟨?_, ?_⟩
      · refine le_trans (Nat.mul_le_mul_right 2 ?_) (viaIn hi le_rfl)
        calc m * block (r * p.vn) (defaultBlock (r * p.vn) p.comm.length) me ≤ m * (defaultBlock r p.comm.length * p.vn) :=
              Nat.mul_le_mul_left _ ((block_le _ _ _).trans (default_mul _ _ _ hl))
          _ = defaultBlock r p.comm.length * m * p.vn := by ring
      · cases ho : p.flags.scrambledOut
        · exact viaOut ho (Nat.le_mul_of_pos_right _ hmb)
        · exact row r (.inl rfl) (by rw [hi, ho]; simp)
    · intro ho
      refine ⟨?_, ?_⟩
      · refine le_trans (Nat.mul_le_mul_right 2 ?_) (viaOut ho le_rfl)
        calc r * block (m * p.vn) (defaultBlock (m * p.vn) p.comm.length) me ≤ r * (defaultBlock m p.comm.length * p.vn) :=
              Nat.mul_le_mul_left _ ((block_le _ _ _).trans (default_mul _ _ _ hl))
          _ = r * defaultBlock m p.comm.length * p.vn := by ring
      · cases hi : p.flags.scrambledIn
        · exact viaIn hi (Nat.le_mul_of_pos_left _ hrb)
        · exact row m (.inr rfl) (by rw [hi, ho]; simp)
  · intro hone _ d hd hvn
    rw [h.sz] at hd
    obtain ⟨rfl, _⟩ := List.cons.inj hd
    rcases h.self ((hone.2 ⟨n, B, B⟩ (by rw [h.sz]; simp)).1) with h1 | h1
    · exact prime_radix h1
    · have := h.vn; omega

end

end FFTW.Mpi
