import Verif.Proofs.MapFlags

/-!
# C25 (API flags), C26 (time limit)
-/

namespace FFTW.Props
open FFTW.MapFlags

/-- flag `x` (a single bit) is set in the word `w` -/
def Has {n : Nat} (w : BitVec n) (x : BitVec 32) : Prop := w.setWidth 32 &&& x ≠ 0

private theorem has_bit {n : Nat} (w : BitVec n) (k : Nat) (hk : k < 32) : Has w (1#32 <<< k) ↔ w.getLsbD k = true := by
  have := flagp_yes (w.setWidth 32) k hk
  simp only [FLAGP, YES, BitVec.getLsbD_setWidth, hk, decide_true, Bool.true_and] at this
  rw [show BitVec.setWidth 32 w &&& 1#32 <<< k ^^^ 0 = BitVec.setWidth 32 w &&& 1#32 <<< k by simp] at this
  exact this

private theorem mapflags_eq (t : ℝ) (flags : BitVec 32) : ∃ p, mapflags t flags = some p ∧
    (∀ i, i < 20 → p.l.getLsbD i = lBit (selfBit fun i => flags.getLsbD i) i) ∧
    (∀ i, i < 20 → p.u.getLsbD i = (uBit (selfBit fun i => flags.getLsbD i) i || lBit (selfBit fun i => flags.getLsbD i) i)) ∧
    timelimitToFlags t = some p.tli.toNat := by
  unfold mapflags
  simp only []
  set f := mapFlagsSelf flags selfFlagmap
  have hself : ∀ i, i < 32 → f.getLsbD i = selfBit (fun i => flags.getLsbD i) i := self_bits flags
  have hlcongr : ∀ i, i < 32 → lBit (fun i => f.getLsbD i) i = lBit (selfBit fun i => flags.getLsbD i) i := by
    intro i hi
    interval_cases i <;> simp only [lBit] <;> rw [hself _ (by norm_num)]
  have hucongr : ∀ i, i < 32 → uBit (fun i => f.getLsbD i) i = uBit (selfBit fun i => flags.getLsbD i) i := by
    intro i hi
    interval_cases i <;> simp only [uBit] <;> rw [hself _ (by norm_num)]
  have hl : ∀ i, i < 32 → (mapFlags f 0 lFlagmap).getLsbD i = lBit (selfBit fun i => flags.getLsbD i) i :=
    fun i hi => by rw [l_bits f i hi, hlcongr i hi]
  have hu : ∀ i, i < 32 → (mapFlags f 0 uFlagmap).getLsbD i = uBit (selfBit fun i => flags.getLsbD i) i :=
    fun i hi => by rw [u_bits f i hi, hucongr i hi]
  have hlz : ∀ i, i < 32 → 20 ≤ i → (mapFlags f 0 lFlagmap).getLsbD i = false := by
    intro i hi h20; rw [hl i hi]; interval_cases i <;> rfl
  have huz : ∀ i, i < 32 → 20 ≤ i → (mapFlags f 0 uFlagmap).getLsbD i = false := by
    intro i hi h20; rw [hu i hi]; interval_cases i <;> rfl
  generalize mapFlags f 0 lFlagmap = L at *
  generalize mapFlags f 0 uFlagmap = U at *
  obtain ⟨n, hn, hn2⟩ := timelimit_ok t
  rw [if_pos ?_, hn]
  · simp only [Option.bind_eq_bind, Option.bind_some]
    have h9 : (BitVec.ofNat 9 n).toNat = n := by rw [BitVec.toNat_ofNat]; exact Nat.mod_eq_of_lt hn2
    rw [if_pos h9]
    refine ⟨_, rfl, ?_, ?_, by simp only [h9]⟩
    · intro i hi
      simp only [BitVec.getLsbD_setWidth, hi, decide_true, Bool.true_and]
      exact hl i (by omega)
    · intro i hi
      simp only [BitVec.getLsbD_setWidth, hi, decide_true, Bool.true_and, BitVec.getLsbD_or]
      rw [hl i (by omega), hu i (by omega)]
  · constructor <;>
    · apply BitVec.eq_of_getLsbD_eq
      intro i hi
      simp only [BitVec.getLsbD_setWidth, hi, decide_true, Bool.true_and, BitVec.getLsbD_or]
      by_cases h20 : i < 20
      · simp [h20]
      · simp [h20, hlz i hi (by omega), huz i hi (by omega)]

/-- C25: for every flag word and time limit `mapflags` succeeds (no assertion fails, no bit is lost), and the lower flag
set contains exactly the flags requested. -/
theorem C25_lower (t : ℝ) (flags : BitVec 32) : ∃ p, mapflags t flags = some p ∧
    (Has p.l NO_DESTROY_INPUT ↔ Has flags FFTW_PRESERVE_INPUT ∨ ¬ Has flags FFTW_DESTROY_INPUT) ∧
    (Has p.l NO_SIMD ↔ Has flags FFTW_NO_SIMD) ∧
    (Has p.l CONSERVE_MEMORY ↔ Has flags FFTW_CONSERVE_MEMORY) ∧
    (Has p.l NO_BUFFERING ↔ Has flags FFTW_NO_BUFFERING) ∧
    (Has p.l NO_LARGE_GENERIC ↔ ¬ Has flags FFTW_ALLOW_LARGE_GENERIC) ∧
    (p.l.setWidth 32 &&& ~~~ (NO_DESTROY_INPUT ||| NO_SIMD ||| CONSERVE_MEMORY ||| NO_BUFFERING ||| NO_LARGE_GENERIC) = 0) := by
  obtain ⟨p, h, hl, _⟩ := mapflags_eq t flags
  refine ⟨p, h, ?_⟩
  simp only [show NO_DESTROY_INPUT = 1#32 <<< 12 from rfl, show NO_SIMD = 1#32 <<< 13 from rfl, show CONSERVE_MEMORY = 1#32 <<< 14 from rfl,
    show NO_BUFFERING = 1#32 <<< 10 from rfl, show NO_LARGE_GENERIC = 1#32 <<< 6 from rfl, FFTW_PRESERVE_INPUT, FFTW_DESTROY_INPUT,
    FFTW_NO_SIMD, FFTW_CONSERVE_MEMORY, FFTW_NO_BUFFERING, FFTW_ALLOW_LARGE_GENERIC]
  repeat rw [has_bit _ _ (by norm_num)]
  rw [hl 12 (by norm_num), hl 13 (by norm_num), hl 14 (by norm_num), hl 10 (by norm_num), hl 6 (by norm_num)]
  refine ⟨by simp [lBit, selfBit], by simp [lBit, selfBit], by simp [lBit, selfBit], by simp [lBit, selfBit], by simp [lBit, selfBit], ?_⟩
  apply BitVec.eq_of_getLsbD_eq
  intro i hi
  rw [BitVec.getLsbD_and, BitVec.getLsbD_setWidth]
  by_cases h20 : i < 20
  · rw [hl i h20]
    interval_cases i <;> simp [lBit]
  · rw [BitVec.getLsbD_of_ge p.l i (by omega)]; simp

/-- C25: and the upper flag set contains the lower one plus exactly the impatience flags implied by the patience level
(EXHAUSTIVE ⊃ PATIENT ⊃ default, ESTIMATE) and those requested explicitly. -/
theorem C25_upper (t : ℝ) (flags : BitVec 32) : ∃ p, mapflags t flags = some p ∧
    (p.l &&& p.u = p.l) ∧
    (let patient := (Has flags FFTW_PATIENT ∨ Has flags FFTW_EXHAUSTIVE) ∧ ¬ Has flags FFTW_ESTIMATE
    (Has p.u NO_UGLY ↔ ¬ Has flags FFTW_EXHAUSTIVE) ∧
    (Has p.u NO_SLOW ↔ Has flags FFTW_NO_SLOW ∨ ¬ Has flags FFTW_EXHAUSTIVE) ∧
    (Has p.u ESTIMATE ↔ Has flags FFTW_ESTIMATE_PATIENT ∨ Has flags FFTW_ESTIMATE) ∧
    (Has p.u ALLOW_PRUNING ↔ Has flags FFTW_ALLOW_PRUNING ∨ Has flags FFTW_ESTIMATE) ∧
    (Has p.u NO_INDIRECT_OP ↔ Has flags FFTW_NO_INDIRECT_OP ∨ Has flags FFTW_ESTIMATE) ∧
    (Has p.u BELIEVE_PCOST ↔ Has flags FFTW_BELIEVE_PCOST ∨ ¬ patient) ∧
    (Has p.u NO_DFT_R2HC ↔ Has flags FFTW_NO_DFT_R2HC ∨ ¬ patient) ∧
    (Has p.u NO_NONTHREADED ↔ Has flags FFTW_NO_NONTHREADED ∨ ¬ patient) ∧
    (Has p.u NO_RANK_SPLITS ↔ Has flags FFTW_NO_RANK_SPLITS ∨ ¬ patient) ∧
    (Has p.u NO_VRANK_SPLITS ↔ Has flags FFTW_NO_VRANK_SPLITS ∨ ¬ patient) ∧
    (Has p.u NO_VRECURSE ↔ Has flags FFTW_NO_VRECURSE ∨ ¬ patient) ∧
    (Has p.u NO_FIXED_RADIX_LARGE_N ↔ Has flags FFTW_NO_FIXED_RADIX_LARGE_N ∨ ¬ patient) ∧
    (∀ x ∈ [NO_DESTROY_INPUT, NO_SIMD, CONSERVE_MEMORY, NO_BUFFERING, NO_LARGE_GENERIC, NO_DHT_R2HC], Has p.u x ↔ Has p.l x)) := by
  obtain ⟨p, h, hl, hu, _⟩ := mapflags_eq t flags
  refine ⟨p, h, ?_, ?_⟩
  · apply BitVec.eq_of_getLsbD_eq
    intro i hi
    rw [BitVec.getLsbD_and, hl i hi, hu i hi]
    cases lBit (selfBit fun i => flags.getLsbD i) i <;> simp
  · simp only [FFTW_EXHAUSTIVE, FFTW_PATIENT, FFTW_ESTIMATE, FFTW_ESTIMATE_PATIENT, FFTW_ALLOW_PRUNING, FFTW_BELIEVE_PCOST, FFTW_NO_DFT_R2HC,
      FFTW_NO_NONTHREADED, FFTW_NO_INDIRECT_OP, FFTW_NO_RANK_SPLITS, FFTW_NO_VRANK_SPLITS, FFTW_NO_VRECURSE, FFTW_NO_SLOW, FFTW_NO_FIXED_RADIX_LARGE_N,
      show ESTIMATE = 1#32 <<< 1 from rfl, show ALLOW_PRUNING = 1#32 <<< 17 from rfl, show BELIEVE_PCOST = 1#32 <<< 0 from rfl,
      show NO_DFT_R2HC = 1#32 <<< 2 from rfl, show NO_NONTHREADED = 1#32 <<< 9 from rfl, show NO_INDIRECT_OP = 1#32 <<< 5 from rfl,
      show NO_RANK_SPLITS = 1#32 <<< 7 from rfl, show NO_VRANK_SPLITS = 1#32 <<< 8 from rfl, show NO_VRECURSE = 1#32 <<< 4 from rfl,
      show NO_SLOW = 1#32 <<< 3 from rfl, show NO_FIXED_RADIX_LARGE_N = 1#32 <<< 11 from rfl, show NO_UGLY = 1#32 <<< 16 from rfl,
      show NO_DESTROY_INPUT = 1#32 <<< 12 from rfl, show NO_SIMD = 1#32 <<< 13 from rfl, show CONSERVE_MEMORY = 1#32 <<< 14 from rfl,
      show NO_BUFFERING = 1#32 <<< 10 from rfl, show NO_LARGE_GENERIC = 1#32 <<< 6 from rfl, show NO_DHT_R2HC = 1#32 <<< 15 from rfl,
      List.forall_mem_cons, List.not_mem_nil, false_imp_iff, implies_true, and_true]
    repeat rw [has_bit _ _ (by norm_num)]
    repeat rw [hu _ (by norm_num)]
    repeat rw [hl _ (by norm_num)]
    simp only [lBit, uBit, selfBit]
    refine ⟨?_, ?_, ?_, ?_, ?_, ?_, ?_, ?_, ?_, ?_, ?_, ?_, ?_, ?_, ?_, ?_, ?_, ?_⟩ <;>
      (cases flags.getLsbD 3 <;> cases flags.getLsbD 5 <;> cases flags.getLsbD 6 <;> simp)

/-- C25: PRESERVE/DESTROY truth table in one line: input may be destroyed only if DESTROY was given without PRESERVE. -/
theorem C25_preserve (t : ℝ) (flags : BitVec 32) (p : PlnrFlags) (h : mapflags t flags = some p) :
    ¬ Has p.l NO_DESTROY_INPUT ↔ Has flags FFTW_DESTROY_INPUT ∧ ¬ Has flags FFTW_PRESERVE_INPUT := by
  obtain ⟨p', h', h1, _⟩ := C25_lower t flags
  rw [h] at h'
  obtain rfl := Option.some.inj h'
  rw [h1]; tauto

/-- C26: the impatience code is always defined and fits its 9-bit field … -/
theorem C26_range (t : ℝ) : ∃ n, timelimitToFlags t = some n ∧ n < 2 ^ 9 := timelimit_ok t

/-- C26: … and a smaller (non-negative) time limit never maps to less impatience; "no limit" maps to zero impatience. -/
theorem C26_monotone (s t : ℝ) (hs : 0 ≤ s) (hst : s ≤ t) (m n : Nat) (hm : timelimitToFlags s = some m) (hn : timelimitToFlags t = some n) :
    n ≤ m := timelimit_mono s t hs hst m n hm hn

theorem C26_no_limit (t : ℝ) (ht : t < 0) : timelimitToFlags t = some 0 := by
  unfold timelimitToFlags; simp [ht]

/-- C26: the value stored by `mapflags` is that code. -/
theorem C26_stored (t : ℝ) (flags : BitVec 32) : ∃ p, mapflags t flags = some p ∧ timelimitToFlags t = some p.tli.toNat := by
  obtain ⟨p, h, _, _, h4⟩ := mapflags_eq t flags
  exact ⟨p, h, h4⟩

-- a 0-second limit is the most impatient, so the order is not trivial
example : timelimitToFlags 0 = some 511 := by
  unfold timelimitToFlags
  rw [if_neg (by norm_num), if_pos (by norm_num)]; rfl

-- FFTW_ESTIMATE alone: ESTIMATE ∈ u and input preserved
example : ∃ p, mapflags (-1) FFTW_ESTIMATE = some p ∧ Has p.u ESTIMATE ∧ Has p.l NO_DESTROY_INPUT := by
  obtain ⟨p, h, _, h2⟩ := C25_upper (-1) FFTW_ESTIMATE
  obtain ⟨p', h', h3, _⟩ := C25_lower (-1) FFTW_ESTIMATE
  rw [h] at h'
  obtain rfl := Option.some.inj h'
  exact ⟨p, h, h2.2.2.1.2 (Or.inr (by unfold Has; decide)), h3.2 (Or.inr (by unfold Has; decide))⟩

end FFTW.Props
