import Verif.Proofs.Toms

/-!
# TOMS algorithm 513: the search and the outer loop
-/

namespace FFTW.RdftS

section
variable {nx ny : ℕ}

/-- what is known after the cycles of all elements up to `i` have been done: `S` are the elements moved -/
structure Cov (nx ny : ℕ) (S : Finset ℕ) (i : ℕ) : Prop where
  sub : ∀ x ∈ S, x < ny * nx
  closed : ∀ x ∈ S, succT nx ny x ∈ S
  comp : ∀ x ∈ S, ny * nx - 1 - x ∈ S
  nofix : ∀ x ∈ S, succT nx ny x ≠ x
  lead : ∀ x ∈ S, ∃ j, (succT nx ny)^[j] x ≤ i ∨ ny * nx - 1 - i ≤ (succT nx ny)^[j] x

theorem Cov.mono {S : Finset ℕ} {i i' : ℕ} (h : Cov nx ny S i) (hi : i ≤ i') : Cov nx ny S i' :=
  ⟨h.sub, h.closed, h.comp, h.nofix, fun x hx => by
    obtain ⟨j, hj⟩ := h.lead x hx
    exact ⟨j, by omega⟩⟩

theorem Cov.iter {S : Finset ℕ} {i x : ℕ} (h : Cov nx ny S i) (hx : x ∈ S) (j : ℕ) : (succT nx ny)^[j] x ∈ S := by
  induction j with
  | zero => exact hx
  | succ j ih => rw [Function.iterate_succ_apply']; exact h.closed _ ih

/-- what is not moved stays apart -/
theorem Cov.iter_not {S : Finset ℕ} {i x : ℕ} (h : Cov nx ny S i) (hx : x < ny * nx) (hS : x ∉ S) (j : ℕ) : (succT nx ny)^[j] x ∉ S := by
  intro hc
  obtain ⟨l, hl⟩ := iter_back hx j
  exact hS (hl ▸ h.iter hc l)

theorem Cov.comp_not {S : Finset ℕ} {i x : ℕ} (h : Cov nx ny S i) (hx : x < ny * nx) (hS : x ∉ S) : ny * nx - 1 - x ∉ S := by
  intro hc
  have := h.comp _ hc
  rw [show ny * nx - 1 - (ny * nx - 1 - x) = x by omega] at this
  exact hS this

theorem iter_nofix {x : ℕ} (hx : x < ny * nx) (hne : succT nx ny x ≠ x) (j : ℕ) : succT nx ny ((succT nx ny)^[j] x) ≠ (succT nx ny)^[j] x := by
  intro e
  rw [← Function.iterate_succ_apply' (succT nx ny) j x, Function.iterate_succ_apply] at e
  exact hne (iter_inj (succT_lt hx) hx j e)

theorem comp_nofix {x : ℕ} (hx : x < ny * nx) (hne : succT nx ny x ≠ x) : succT nx ny (ny * nx - 1 - x) ≠ ny * nx - 1 - x := by
  rw [succT_comp hx]
  have := succT_lt hx
  omega

/-- an element that is not fixed is not its own mirror image -/
theorem ne_comp {x : ℕ} (hx : x < ny * nx) (hne : succT nx ny x ≠ x) : x ≠ ny * nx - 1 - x := by
  intro e
  have h2 := succT_comp hx
  rw [← e] at h2
  have := succT_lt hx
  omega

/-- the first element not yet moved -/
structure First (nx ny : ℕ) (S : Finset ℕ) (y : ℕ) : Prop where
  lt : y < ny * nx
  notin : y ∉ S
  nofix : succT nx ny y ≠ y
  below : ∀ z < y, z ∈ S ∨ succT nx ny z = z

theorem First.lt_half {S : Finset ℕ} {i y : ℕ} (h : First nx ny S y) (hc : Cov nx ny S i) : y < ny * nx - 1 - y := by
  have h1 := hc.comp_not h.lt h.notin
  have h2 := comp_nofix h.lt h.nofix
  have h3 := ne_comp h.lt h.nofix
  by_contra hlt
  rcases h.below (ny * nx - 1 - y) (by omega) with h4 | h4
  · exact h1 h4
  · exact h2 h4

/-- the cycle of the first element stays above it and below its mirror image -/
theorem First.orbit {S : Finset ℕ} {i y : ℕ} (h : First nx ny S y) (hc : Cov nx ny S i) (j : ℕ) :
    y ≤ (succT nx ny)^[j] y ∧ (succT nx ny)^[j] y ≤ ny * nx - 1 - y := by
  have h1 := hc.iter_not h.lt h.notin j
  have h2 := iter_nofix h.lt h.nofix j
  have h3 := iter_lt h.lt j
  constructor
  · by_contra hlt
    rcases h.below _ (Nat.lt_of_not_le hlt) with h4 | h4
    · exact h1 h4
    · exact h2 h4
  · by_contra hlt
    have h5 := hc.comp_not h3 h1
    have h6 := comp_nofix h3 h2
    rcases h.below (ny * nx - 1 - (succT nx ny)^[j] y) (by omega) with h4 | h4
    · exact h5 h4
    · exact h6 h4

theorem walk_run {i max : ℕ} (x T : ℕ) (hin : ∀ l, 1 ≤ l → l < T → i < (succT nx ny)^[l] x ∧ (succT nx ny)^[l] x < max)
    (hout : ¬ (i < (succT nx ny)^[T] x ∧ (succT nx ny)^[T] x < max)) : ∀ d j, j + d = T → 1 ≤ j → walk nx ny i max ((succT nx ny)^[j] x) = some ((succT nx ny)^[T] x) := by
  intro d
  induction d with
  | zero =>
    intro j hj _
    obtain rfl : j = T := by omega
    rw [walk, if_neg hout]
  | succ d ih =>
    intro j hj h1
    rw [walk, if_pos (hin j h1 (by omega)), ← Function.iterate_succ_apply' (succT nx ny) j x]
    exact ih (j + 1) (by omega) (by omega)

theorem First.walk {S : Finset ℕ} {i y : ℕ} (h : First nx ny S y) (hc : Cov nx ny S i) (h0 : 0 < y) :
    walk nx ny y (ny * nx - 1 - (y - 1)) (succT nx ny y) = some y := by
  classical
  have hex := periodic h.lt
  obtain ⟨hT, e⟩ := Nat.find_spec hex
  have := walk_run (nx := nx) (ny := ny) (i := y) (max := ny * nx - 1 - (y - 1)) y (Nat.find hex) ?_ ?_ (Nat.find hex - 1) 1 (by omega) (le_refl _)
  · rw [Function.iterate_one, e] at this; exact this
  · intro l h1 h2
    obtain ⟨o1, o2⟩ := h.orbit hc l
    have hne : (succT nx ny)^[l] y ≠ y := by
      have := Nat.find_min hex h2
      push Not at this
      exact this (by omega)
    have := h.lt_half hc
    constructor
    · omega
    · omega
  · rw [e]; omega

/-- a cycle already done is left before it closes -/
theorem Cov.walk {S : Finset ℕ} {i x : ℕ} (hc : Cov nx ny S i) (hx : x = i + 1) (hS : x ∈ S) (hlt : x < ny * nx - 1 - i) :
    ∃ z, walk nx ny x (ny * nx - 1 - i) (succT nx ny x) = some z ∧ z ≠ x := by
  classical
  have hxm := hc.sub x hS
  have hex : ∃ T, 1 ≤ T ∧ ¬ (x < (succT nx ny)^[T] x ∧ (succT nx ny)^[T] x < ny * nx - 1 - i) := by
    obtain ⟨T, hT, e⟩ := periodic hxm
    exact ⟨T, hT, by rw [e]; omega⟩
  obtain ⟨T1, T2⟩ := Nat.find_spec hex
  have hmin : ∀ l, 1 ≤ l → l < Nat.find hex → x < (succT nx ny)^[l] x ∧ (succT nx ny)^[l] x < ny * nx - 1 - i := by
    intro l h1 h2
    have := Nat.find_min hex h2
    by_contra hcon
    exact this ⟨h1, hcon⟩
  refine ⟨_, walk_run x (Nat.find hex) hmin T2 (Nat.find hex - 1) 1 (by omega) (le_refl _), ?_⟩
  intro e
  obtain ⟨j, hj⟩ := hc.lead x hS
  have hp : Function.IsPeriodicPt (succT nx ny) (Nat.find hex) x := e
  rw [← hp.iterate_mod_apply j] at hj
  have hlt' : j % Nat.find hex < Nat.find hex := Nat.mod_lt _ (by omega)
  rcases Nat.eq_zero_or_pos (j % Nat.find hex) with h0 | h0
  · rw [h0] at hj
    change x ≤ i ∨ ny * nx - 1 - i ≤ x at hj
    omega
  · have := hmin _ h0 hlt'
    omega

/-- `im` follows `ny * i` modulo `k` -/
theorem im_step {i : ℕ} (hx2 : 2 ≤ nx) (hi : i + 1 < ny * nx - 1) :
    (if succT nx ny i + ny > ny * nx - 1 then succT nx ny i + ny - (ny * nx - 1) else succT nx ny i + ny) = succT nx ny (i + 1) := by
  have hy : 0 < ny := by rcases Nat.eq_zero_or_pos ny with rfl | h; · simp at hi
                         · exact h
  obtain ⟨q, r, hq, hr, rfl⟩ := radix_split (show i < ny * nx by omega)
  rw [succT_mk hy hr]
  by_cases h : r + 1 < nx
  · rw [show q * nx + r + 1 = q * nx + (r + 1) by ring, succT_mk hy h]
    have : (r + 1) * ny + q < nx * ny := lt_radix h hq
    rw [Nat.mul_comm nx ny] at this
    rw [if_neg (by have e : (r + 1) * ny = r * ny + ny := by ring
                   omega)]
    ring
  · obtain rfl : nx = r + 1 := by omega
    rw [show q * (r + 1) + r + 1 = (q + 1) * (r + 1) + 0 by ring, succT_mk hy (by omega)]
    have e : ny * (r + 1) = r * ny + ny := by ring
    rw [e, if_pos (by omega)]
    omega

theorem search_run {sz : ℕ} (hx2 : 2 ≤ nx) {S : Finset ℕ} {y : ℕ} (hy : First nx ny S y) (move : ℕ → Bool) (hmv : ∀ x, move x = true ↔ x < sz ∧ x ∈ S) :
    ∀ d i, i + 1 + d = y → Cov nx ny S i → search nx ny sz move i (succT nx ny i) = some (y, succT nx ny y) := by
  intro d
  induction d with
  | zero =>
    intro i hi hc
    have hh := hy.lt_half hc
    rw [search]
    simp only [im_step hx2 (show i + 1 < ny * nx - 1 by omega)]
    obtain rfl : i + 1 = y := by omega
    rw [if_neg (fun e => hy.nofix e.symm)]
    by_cases h : i + 1 ≥ sz
    · rw [if_pos h]
      have := hy.walk hc (by omega)
      rw [Nat.add_sub_cancel] at this
      rw [this]
      simp
    · rw [if_neg h]
      have : move (i + 1) = false := by
        rw [← Bool.not_eq_true, hmv]; exact fun h => hy.notin h.2
      rw [this]; rfl
  | succ d ih =>
    intro i hi hc
    have hh := hy.lt_half hc
    have hrec := ih (i + 1) (by omega) (hc.mono (by omega))
    rw [search]
    simp only [im_step hx2 (show i + 1 < ny * nx - 1 by omega)]
    by_cases hf : i + 1 = succT nx ny (i + 1)
    · rw [if_pos hf]; exact hrec
    · rw [if_neg hf]
      have hS : i + 1 ∈ S := (hy.below (i + 1) (by omega)).resolve_right fun e => hf e.symm
      by_cases h : i + 1 ≥ sz
      · rw [if_pos h]
        obtain ⟨z, hz, hne⟩ := hc.walk rfl hS (by omega)
        rw [hz]
        show (if z = i + 1 then _ else _) = _
        rw [if_neg hne]; exact hrec
      · rw [if_neg h]
        have : move (i + 1) = true := (hmv _).2 ⟨by omega, hS⟩
        rw [this]; exact hrec

/-! ### counting -/

/-- the fixed points -/
def fixedPts (nx ny : ℕ) : Finset ℕ := (Finset.range (ny * nx)).filter fun x => succT nx ny x = x

theorem cov_card {S : Finset ℕ} {i : ℕ} (hc : Cov nx ny S i) : (S ∪ fixedPts nx ny).card = S.card + (fixedPts nx ny).card := by
  refine Finset.card_union_of_disjoint (Finset.disjoint_left.2 fun x hx hf => ?_)
  exact hc.nofix x hx (Finset.mem_filter.1 hf).2

theorem cov_sub {S : Finset ℕ} {i : ℕ} (hc : Cov nx ny S i) : S ∪ fixedPts nx ny ⊆ Finset.range (ny * nx) := by
  intro x hx
  rcases Finset.mem_union.1 hx with h | h
  · exact Finset.mem_range.2 (hc.sub x h)
  · exact (Finset.mem_filter.1 h).1

theorem all_done {S : Finset ℕ} {i : ℕ} (hc : Cov nx ny S i) (h : ny * nx ≤ S.card + (fixedPts nx ny).card) {x : ℕ} (hx : x < ny * nx) :
    x ∈ S ∨ succT nx ny x = x := by
  have : S ∪ fixedPts nx ny = Finset.range (ny * nx) := Finset.eq_of_subset_of_card_le (cov_sub hc) (by rw [cov_card hc, Finset.card_range]; exact h)
  have h2 := Finset.mem_range.2 hx
  rw [← this] at h2
  rcases Finset.mem_union.1 h2 with h | h
  · exact Or.inl h
  · exact Or.inr (Finset.mem_filter.1 h).2

theorem exists_first {S : Finset ℕ} {i : ℕ} (hc : Cov nx ny S i) (h : S.card + (fixedPts nx ny).card < ny * nx) : ∃ y, First nx ny S y := by
  classical
  have hex : ∃ y, y < ny * nx ∧ y ∉ S ∧ succT nx ny y ≠ y := by
    by_contra hcon
    push Not at hcon
    have : Finset.range (ny * nx) ⊆ S ∪ fixedPts nx ny := by
      intro y hy
      rw [Finset.mem_union]
      by_cases hS : y ∈ S
      · exact Or.inl hS
      · exact Or.inr (Finset.mem_filter.2 ⟨hy, hcon y (Finset.mem_range.1 hy) hS⟩)
    have := Finset.card_le_card this
    rw [cov_card hc, Finset.card_range] at this
    omega
  obtain ⟨a1, a2, a3⟩ := Nat.find_spec hex
  refine ⟨Nat.find hex, a1, a2, a3, fun z hz => ?_⟩
  have := Nat.find_min hex hz
  by_contra hcon
  push Not at hcon
  exact this ⟨by omega, hcon.1, hcon.2⟩

/-- the elements of one cycle and its companion -/
def cyc (nx ny i t : ℕ) : Finset ℕ :=
  (Finset.range (t + 1)).image (fun j => (succT nx ny)^[j] i) ∪ (Finset.range (t + 1)).image fun j => ny * nx - 1 - (succT nx ny)^[j] i

theorem mem_cyc {i t x : ℕ} : x ∈ cyc nx ny i t ↔ Dn nx ny i (t + 1) x := by
  simp only [cyc, Finset.mem_union, Finset.mem_image, Finset.mem_range, Dn]
  constructor
  · rintro (⟨j, hj, rfl⟩ | ⟨j, hj, rfl⟩)
    · exact ⟨j, hj, Or.inl rfl⟩
    · exact ⟨j, hj, Or.inr rfl⟩
  · rintro ⟨j, hj, rfl | rfl⟩
    · exact Or.inl ⟨j, hj, rfl⟩
    · exact Or.inr ⟨j, hj, rfl⟩

theorem cyc_card {i t : ℕ} (hi : i < ny * nx) (hf : succT nx ny i ≠ i) (h : CycLen nx ny i t) : (cyc nx ny i t).card = 2 * (t + 1) := by
  have hne : ∀ j ≤ t, ∀ l ≤ t, (succT nx ny)^[j] i = (succT nx ny)^[l] i → j = l := by
    intro j hj l hl e
    by_contra hne
    rcases Nat.lt_or_gt_of_ne hne with hlt | hlt
    · exact (h.ne hi hl hlt).1 e.symm
    · exact (h.ne hi hj hlt).1 e
  rw [cyc, Finset.card_union_of_disjoint, Finset.card_image_of_injOn, Finset.card_image_of_injOn, Finset.card_range]
  · ring
  · intro j hj l hl e
    have hj' := Finset.mem_range.1 hj
    have hl' := Finset.mem_range.1 hl
    have l1 := iter_lt hi j
    have l2 := iter_lt hi l
    have e' : ny * nx - 1 - (succT nx ny)^[j] i = ny * nx - 1 - (succT nx ny)^[l] i := e
    exact hne j (by omega) l (by omega) (by omega)
  · intro j hj l hl e
    have hj' := Finset.mem_range.1 hj
    have hl' := Finset.mem_range.1 hl
    exact hne j (by omega) l (by omega) e
  · rw [Finset.disjoint_left]
    intro x hx hx'
    obtain ⟨j, hj, rfl⟩ := Finset.mem_image.1 hx
    obtain ⟨l, hl, e⟩ := Finset.mem_image.1 hx'
    have hj' := Finset.mem_range.1 hj
    have hl' := Finset.mem_range.1 hl
    have l1 := iter_lt hi j
    have l2 := iter_lt hi l
    rcases Nat.lt_trichotomy j l with hlt | rfl | hlt
    · exact (h.ne hi (by omega) hlt).2 (by omega)
    · exact ne_comp (iter_lt hi j) (iter_nofix hi hf j) e.symm
    · exact (h.ne hi (by omega) hlt).2 e.symm

/-- one more cycle -/
theorem Cov.add {S : Finset ℕ} {i t : ℕ} (hc : Cov nx ny S i) (hi : i < ny * nx) (hf : succT nx ny i ≠ i) (h : CycLen nx ny i t) :
    Cov nx ny (S ∪ cyc nx ny i t) i := by
  have hcomp : ∀ x, Dn nx ny i (t + 1) x → Dn nx ny i (t + 1) (ny * nx - 1 - x) := by
    rintro x ⟨j, hj, h' | h'⟩
    · exact ⟨j, hj, Or.inr (by rw [h'])⟩
    · have := iter_lt hi j
      exact ⟨j, hj, Or.inl (by omega)⟩
  have hlt : ∀ x, Dn nx ny i (t + 1) x → x < ny * nx := by
    rintro x ⟨j, hj, h' | h'⟩
    · rw [h']; exact iter_lt hi j
    · have := iter_lt hi j; omega
  have hiter : ∀ l, ∃ j < t + 1, (succT nx ny)^[l] i = (succT nx ny)^[j] i ∨ (succT nx ny)^[l] i = ny * nx - 1 - (succT nx ny)^[j] i := by
    intro l
    induction l with
    | zero => exact ⟨0, by omega, Or.inl rfl⟩
    | succ l ih =>
      obtain ⟨j, hj, h'⟩ := ih
      rw [Function.iterate_succ_apply']
      have e : succT nx ny ((succT nx ny)^[l] i) = (succT nx ny)^[j + 1] i ∨ succT nx ny ((succT nx ny)^[l] i) = ny * nx - 1 - (succT nx ny)^[j + 1] i := by
        rcases h' with h' | h'
        · left; rw [h', Function.iterate_succ_apply']
        · right; rw [h', succT_comp (iter_lt hi j), Function.iterate_succ_apply']
      by_cases hjt : j < t
      · exact ⟨j + 1, by omega, e⟩
      · obtain rfl : j = t := by omega
        refine ⟨0, by omega, ?_⟩
        rcases h.last with hl | hl <;> rw [hl] at e
        · exact e
        · rcases e with e | e
          · exact Or.inr e
          · left; rw [e]; show _ = i; omega
  have hstep : ∀ x, Dn nx ny i (t + 1) x → Dn nx ny i (t + 1) (succT nx ny x) := by
    rintro x ⟨j, hj, h'⟩
    obtain ⟨j', hj', h2⟩ := hiter (j + 1)
    rw [Function.iterate_succ_apply'] at h2
    rcases h' with rfl | rfl
    · exact ⟨j', hj', h2⟩
    · rw [succT_comp (iter_lt hi j)]
      have := hcomp _ ⟨j', hj', h2⟩
      exact this
  refine ⟨?_, ?_, ?_, ?_, ?_⟩
  · intro x hx
    rcases Finset.mem_union.1 hx with h' | h'
    · exact hc.sub x h'
    · exact hlt x (mem_cyc.1 h')
  · intro x hx
    rcases Finset.mem_union.1 hx with h' | h'
    · exact Finset.mem_union_left _ (hc.closed x h')
    · exact Finset.mem_union_right _ (mem_cyc.2 (hstep x (mem_cyc.1 h')))
  · intro x hx
    rcases Finset.mem_union.1 hx with h' | h'
    · exact Finset.mem_union_left _ (hc.comp x h')
    · exact Finset.mem_union_right _ (mem_cyc.2 (hcomp x (mem_cyc.1 h')))
  · intro x hx
    rcases Finset.mem_union.1 hx with h' | h'
    · exact hc.nofix x h'
    · obtain ⟨j, hj, rfl | rfl⟩ := mem_cyc.1 h'
      · exact iter_nofix hi hf j
      · exact comp_nofix (iter_lt hi j) (iter_nofix hi hf j)
  · intro x hx
    rcases Finset.mem_union.1 hx with h' | h'
    · exact hc.lead x h'
    · obtain ⟨j, hj, rfl | rfl⟩ := mem_cyc.1 h'
      · obtain ⟨l, hl⟩ := iter_back hi j
        exact ⟨l, Or.inl (by rw [hl])⟩
      · obtain ⟨l, hl⟩ := iter_back hi j
        exact ⟨l, Or.inr (by rw [iter_comp (iter_lt hi j), hl])⟩

/-! ### the outer loop -/

variable {a : Ptr} {N sz : ℕ}

theorem tomsLoop_run (hx2 : 2 ≤ nx) (st0 : State) (A : ℕ → ℕ → ℝ) : ∀ d (S : Finset ℕ) (i : ℕ) (move : ℕ → Bool) (st : State), ny * nx - S.card ≤ d →
    Cov nx ny S i → First nx ny S i → (∀ x, move x = true ↔ x < sz ∧ x ∈ S) → View a N (ny * nx) st0 (moved nx ny (fun x => x ∈ S) A) st →
    ∃ st', tomsLoop a nx ny N sz i (succT nx ny i) move (S.card + (fixedPts nx ny).card) st = some st' ∧
      View a N (ny * nx) st0 (fun x => A (succT nx ny x)) st' := by
  intro d
  induction d with
  | zero =>
    intro S i move st hd hc hF _ _
    exfalso
    have h1 : S ⊆ Finset.range (ny * nx) := fun x hx => Finset.mem_range.2 (hc.sub x hx)
    have h2 := Finset.eq_of_subset_of_card_le h1 (by rw [Finset.card_range]; omega)
    exact hF.notin (by rw [h2]; exact Finset.mem_range.2 hF.lt)
  | succ d ih =>
    intro S i move st hd hc hF hmv hV
    have hi := hF.lt
    obtain ⟨t, ht⟩ := exists_cycLen hi
    obtain ⟨e, he, e1, e2, e3, e4, e5, e6, e7⟩ := cycle_run (a := a) (N := N) (sz := sz) hi ht st0 (moved nx ny (fun x => x ∈ S) A) move
      (S.card + (fixedPts nx ny).card) t 0 (by omega) move st (by intro x; simp [Dn]) (hV.congr fun x hx v hv => by
        rw [moved, if_neg]; rintro ⟨j, hj, _⟩; omega)
    rw [tomsLoop]
    simp only
    rw [show (succT nx ny)^[0] i = i from rfl, show S.card + (fixedPts nx ny).card + 2 * 0 = S.card + (fixedPts nx ny).card from rfl] at he
    rw [he]
    simp only [Option.bind_eq_bind, Option.bind_some]
    have hb : ∀ v < N, st.mem (tupAt a N i + (v : ℤ)) = moved nx ny (fun x => x ∈ S) A i v := fun v hv => hV.tup i hi v hv
    have hcv : ∀ v < N, st.mem (tupAt a N (ny * nx - 1 - i) + (v : ℤ)) = moved nx ny (fun x => x ∈ S) A (ny * nx - 1 - i) v := fun v hv => hV.tup _ (by omega) v hv
    obtain ⟨st', hst'⟩ : ∃ st', st' = putTuple N (tupAt a N e.i1c) (if e.swapped then fun v : ℕ => st.mem (tupAt a N i + (v : ℤ)) else fun v : ℕ => st.mem (tupAt a N (ny * nx - 1 - i) + (v : ℤ)))
      (putTuple N (tupAt a N e.i1) (if e.swapped then fun v : ℕ => st.mem (tupAt a N (ny * nx - 1 - i) + (v : ℤ)) else fun v : ℕ => st.mem (tupAt a N i + (v : ℤ))) e.st) := ⟨_, rfl⟩
    rw [← hst']
    have lt := iter_lt hi t
    have hV' : View a N (ny * nx) st0 (moved nx ny (fun x => x ∈ S ∪ cyc nx ny i t) A) st' := by
      have w1 := e7.put (x := e.i1) (by rw [e1]; exact lt) (if e.swapped then fun v : ℕ => st.mem (tupAt a N (ny * nx - 1 - i) + (v : ℤ)) else fun v : ℕ => st.mem (tupAt a N i + (v : ℤ)))
        (moved nx ny (fun x => x ∈ S) A ((succT nx ny)^[t + 1] i)) (by
          intro v hv
          cases hsw : e.swapped
          · rw [e4 hsw]; simpa using hb v hv
          · rw [e5 hsw]; simpa using hcv v hv)
      have w2 := w1.put (x := e.i1c) (by rw [e2]; omega) (if e.swapped then fun v : ℕ => st.mem (tupAt a N i + (v : ℤ)) else fun v : ℕ => st.mem (tupAt a N (ny * nx - 1 - i) + (v : ℤ)))
        (moved nx ny (fun x => x ∈ S) A (ny * nx - 1 - (succT nx ny)^[t + 1] i)) (by
          intro v hv
          cases hsw : e.swapped
          · rw [e4 hsw]; simpa using hcv v hv
          · rw [e5 hsw, show ny * nx - 1 - (ny * nx - 1 - i) = i by omega]; simpa using hb v hv)
      rw [← hst'] at w2
      refine w2.congr fun x hx v hv => ?_
      rw [e1, e2, ← update2 hi (moved nx ny (fun x => x ∈ S) A) rfl rfl x]
      refine congrFun ?_ v
      unfold moved
      by_cases hD : Dn nx ny i (t + 1) x
      · rw [if_pos (Finset.mem_union_right _ (mem_cyc.2 hD)), if_pos hD, if_neg]
        obtain ⟨j, hj, rfl | rfl⟩ := hD
        · rw [← Function.iterate_succ_apply' (succT nx ny) j i]; exact hc.iter_not hi hF.notin _
        · rw [succT_comp (iter_lt hi j), ← Function.iterate_succ_apply' (succT nx ny) j i]
          exact hc.comp_not (iter_lt hi _) (hc.iter_not hi hF.notin _)
      · rw [if_neg hD]
        by_cases hS : x ∈ S
        · rw [if_pos (Finset.mem_union_left _ hS), if_pos hS]
        · rw [if_neg hS, if_neg]
          intro h'
          rcases Finset.mem_union.1 h' with h' | h'
          · exact hS h'
          · exact hD (mem_cyc.1 h')
    have hc' := hc.add hi hF.nofix ht
    have hcard : (S ∪ cyc nx ny i t).card = S.card + 2 * (t + 1) := by
      rw [Finset.card_union_of_disjoint, cyc_card hi hF.nofix ht]
      rw [Finset.disjoint_left]
      intro x hS hx
      obtain ⟨j, hj, rfl | rfl⟩ := mem_cyc.1 hx
      · exact hc.iter_not hi hF.notin j hS
      · exact hc.comp_not (iter_lt hi j) (hc.iter_not hi hF.notin j) hS
    have hnc : e.ncount = (S ∪ cyc nx ny i t).card + (fixedPts nx ny).card := by rw [e3, hcard]; ring
    have hmv' : ∀ x, e.move x = true ↔ x < sz ∧ x ∈ S ∪ cyc nx ny i t := by
      intro x; rw [e6, hmv, Finset.mem_union, mem_cyc]; tauto
    by_cases hend : e.ncount ≥ ny * nx
    · rw [if_pos hend]
      refine ⟨st', rfl, hV'.congr fun x hx v hv => ?_⟩
      rw [moved]
      rcases all_done hc' (by omega) hx with h' | h'
      · rw [if_pos h']
      · split
        · rfl
        · rw [h']
    · rw [if_neg hend]
      obtain ⟨y, hy⟩ := exists_first hc' (by omega)
      have hiy : i < y := by
        by_contra hle
        rcases Nat.lt_or_eq_of_le (Nat.le_of_not_lt hle) with h' | h'
        · rcases hF.below y h' with h2 | h2
          · exact hy.notin (Finset.mem_union_left _ h2)
          · exact hy.nofix h2
        · exact hy.notin (Finset.mem_union_right _ (mem_cyc.2 ⟨0, by omega, Or.inl h'⟩))
      rw [search_run hx2 hy e.move hmv' (y - i - 1) i (by omega) hc', hnc]
      simp only [Option.bind_some]
      exact ih (S ∪ cyc nx ny i t) y e.move st' (by rw [hcard]; omega) (hc'.mono (by omega)) hy hmv' hV'

end

/-- TOMS 513 terminates and transposes -/
theorem toms513_run {nx ny N sz : ℕ} (hx2 : 2 ≤ nx) (hy2 : 2 ≤ ny) (a : Ptr) (st : State) :
    ∃ st', toms513 a nx ny N sz st = some st' ∧
      View a N (ny * nx) st (fun x v => st.mem (tupAt a N (succT nx ny x) + (v : ℤ))) st' := by
  have h2 : 2 * 2 ≤ ny * nx := Nat.mul_le_mul hy2 hx2
  have hs1 : succT nx ny 1 = ny := by
    have := succT_mk (nx := nx) (ny := ny) (q := 0) (r := 1) (by omega) (by omega)
    simpa using this
  have hs0 : succT nx ny 0 = 0 := by
    have := succT_mk (nx := nx) (ny := ny) (q := 0) (r := 0) (by omega) (by omega)
    simpa using this
  have hF : First nx ny ∅ 1 := ⟨by omega, by simp, by rw [hs1]; omega, fun z hz => Or.inr (by obtain rfl : z = 0 := by omega
                                                                                              exact hs0)⟩
  have hc : Cov nx ny ∅ 1 := ⟨by simp, by simp, by simp, by simp, by simp⟩
  obtain ⟨st', h1, h3⟩ := tomsLoop_run (a := a) (N := N) (sz := sz) hx2 st (fun x v => st.mem (tupAt a N x + (v : ℤ))) (ny * nx) ∅ 1 (fun _ => false) st (by omega) hc hF
    (by simp) ⟨rfl, fun x hx v hv => by rw [moved, if_neg (by simp)], fun _ _ => rfl⟩
  refine ⟨st', ?_, h3⟩
  rw [← h1, toms513, hs1]
  congr 1
  have hcf : (fixedPts nx ny).card = Nat.gcd (ny - 1) (nx - 1) + 1 := card_fixed hx2 hy2
  rw [hcf, Finset.card_empty]
  split
  · rw [gcdC_eq _ _ (by omega)]
    have : 0 < Nat.gcd (ny - 1) (nx - 1) := Nat.gcd_pos_of_pos_left _ (by omega)
    omega
  · rename_i h
    have : Nat.gcd (ny - 1) (nx - 1) = 1 := by
      by_cases h3 : ny ≥ 3
      · rw [show nx - 1 = 1 by omega]; exact Nat.gcd_one_right _
      · rw [show ny - 1 = 1 by omega]; exact Nat.gcd_one_left _
    omega

theorem applyToms_seg {n m vl : ℕ} (hn : 2 ≤ n) (hm : 2 ≤ m) (O : Ptr) : Seg (n * m * vl) (trn n m vl) (fun I => applyToms n m vl I O) := by
  intro p st hp
  obtain ⟨st', h1, h2⟩ := toms513_run (N := vl) (sz := (n + m) / 2) hn hm p st
  have e : applyToms n m vl p O st = st' := by rw [applyToms, h1]; rfl
  beta_reduce
  rw [e]
  refine ⟨by rw [h2.next], ?_, ?_⟩
  · intro w hw
    obtain ⟨i, j, v, hi, hj, hv, rfl⟩ := tr_ind (show w < m * n * vl by rw [Nat.mul_comm m]; exact hw)
    rw [trn_mk hi hv]
    have := h2.tup (j * n + i) (lt_radix hj hi) v hv
    rw [succT_mk (by omega) hi] at this
    unfold tupAt at this
    rw [ptr_nat, ptr_nat, Nat.mul_comm vl, Nat.mul_comm vl] at this
    exact this
  · intro q hq hn'
    refine h2.other q fun x hx v hv => ?_
    unfold tupAt
    rw [ptr_nat, Nat.mul_comm vl]
    refine hn' _ ?_
    rw [Nat.mul_comm n m]
    exact lt_radix hx hv

end FFTW.RdftS
