import Verif.Model.MapFlags
import Mathlib.Tactic.NormNum
import Mathlib.Tactic.Linarith
import Mathlib.Tactic.IntervalCases

namespace FFTW.MapFlags

/-- effect of one table row on one bit -/
theorem bit_yes (f : U32) (x : U32) (i : Nat) : (OP f (YES x)).getLsbD i = (f.getLsbD i || x.getLsbD i) := by
  simp [OP, YES]

theorem bit_no (f : U32) (x : U32) (i : Nat) : (OP f (NO x)).getLsbD i = (f.getLsbD i && !x.getLsbD i) := by
  simp only [OP, NO, BitVec.getLsbD_xor, BitVec.getLsbD_or]
  cases f.getLsbD i <;> cases x.getLsbD i <;> rfl

theorem flagp_yes (f : U32) (k : Nat) (hk : k < 32) : FLAGP f (YES (1#32 <<< k)) ≠ 0 ↔ f.getLsbD k = true := by
  have h : FLAGP f (YES (1#32 <<< k)) = f &&& 1#32 <<< k := by simp [FLAGP, YES]
  rw [h]
  constructor
  · intro hne
    by_contra hc
    apply hne
    apply BitVec.eq_of_getLsbD_eq
    intro i hi
    simp only [BitVec.getLsbD_and, BitVec.getLsbD_shiftLeft, BitVec.getLsbD_one]
    by_cases hik : i = k
    · subst hik; simp [hc]
    · have : ¬ (¬ i < k ∧ i - k = 0) := by omega
      simp; intros; omega
  · intro hb he
    have := congrArg (fun v => v.getLsbD k) he
    rw [BitVec.getLsbD_eq_getElem hk] at hb
    simp [hb, hk] at this

theorem flagp_no (f : U32) (k : Nat) (hk : k < 32) : FLAGP f (NO (1#32 <<< k)) ≠ 0 ↔ f.getLsbD k = false := by
  constructor
  · intro hne
    by_contra hc
    apply hne
    apply BitVec.eq_of_getLsbD_eq
    intro i hi
    simp only [FLAGP, NO, BitVec.getLsbD_and, BitVec.getLsbD_shiftLeft, BitVec.getLsbD_one, BitVec.getLsbD_xor]
    have hc' : f.getLsbD k = true := by simpa using hc
    by_cases hik : i = k
    · subst hik; simp [hc']
    · simp; intros; omega
  · intro hb he
    have := congrArg (fun v => v.getLsbD k) he
    rw [BitVec.getLsbD_eq_getElem hk] at hb
    simp [FLAGP, NO, hb, hk] at this

/-- a table row whose predicate is a single bit -/
theorem row (f o : U32) (k : Nat) (hk : k < 32) (op : FlagMask) (i : Nat) :
    (if FLAGP f (YES (1#32 <<< k)) ≠ 0 then OP o op else o).getLsbD i =
      if f.getLsbD k then (OP o op).getLsbD i else o.getLsbD i := by
  by_cases h : f.getLsbD k = true
  · rw [if_pos ((flagp_yes f k hk).2 h), if_pos h]
  · rw [if_neg (fun hc => h ((flagp_yes f k hk).1 hc)), if_neg h]

theorem rowN (f o : U32) (k : Nat) (hk : k < 32) (op : FlagMask) (i : Nat) :
    (if FLAGP f (NO (1#32 <<< k)) ≠ 0 then OP o op else o).getLsbD i =
      if f.getLsbD k then o.getLsbD i else (OP o op).getLsbD i := by
  by_cases h : f.getLsbD k = true
  · rw [if_neg (fun hc => by simp [(flagp_no f k hk).1 hc] at h), if_pos h]
  · rw [if_pos ((flagp_no f k hk).2 (by simpa using h)), if_neg h]


/-- bits of the flag word after the consistency rules, as a function of the bits before -/
def selfBit (b : Nat → Bool) (i : Nat) : Bool :=
  match i with
  | 0 => b 0 && !b 4
  | 4 => b 4 || !b 0
  | 5 => (b 5 || b 3) && !b 6
  | 7 => b 7 || b 6
  | 12 => b 12 || b 6
  | 20 => b 20 || b 6
  | 18 => b 18 || !b 3
  | 8 => b 8 || !((b 5 || b 3) && !b 6)
  | 9 => b 9 || !((b 5 || b 3) && !b 6)
  | 10 => b 10 || !((b 5 || b 3) && !b 6)
  | 14 => b 14 || !((b 5 || b 3) && !b 6)
  | 15 => b 15 || !((b 5 || b 3) && !b 6)
  | 16 => b 16 || !((b 5 || b 3) && !b 6)
  | 19 => b 19 || !((b 5 || b 3) && !b 6)
  | i => b i

theorem getLsbD_one_shl (k i : Nat) (hi : i < 32) : (1#32 <<< k).getLsbD i = decide (i = k) := by
  by_cases h : i = k
  · subst h; simp [hi]
  · simp [hi, h]; omega

theorem self_bits (f : U32) (i : Nat) (hi : i < 32) : (mapFlagsSelf f selfFlagmap).getLsbD i = selfBit (fun i => f.getLsbD i) i := by
  simp only [mapFlagsSelf, selfFlagmap, IMPLIES, List.flatten_cons, List.flatten_nil, List.cons_append, List.nil_append,
    List.foldl_cons, List.foldl_nil, FFTW_PRESERVE_INPUT, FFTW_DESTROY_INPUT, FFTW_EXHAUSTIVE, FFTW_PATIENT, FFTW_ESTIMATE]
  have h1 := fun i => row f f 4 (by norm_num) (NO (1#32 <<< 0)) i
  generalize (if FLAGP f (YES (1#32 <<< 4)) ≠ 0 then OP f (NO (1#32 <<< 0)) else f) = f1 at h1 ⊢
  have h2 := fun i => rowN f1 f1 0 (by norm_num) (YES (1#32 <<< 4)) i
  generalize (if FLAGP f1 (NO (1#32 <<< 0)) ≠ 0 then OP f1 (YES (1#32 <<< 4)) else f1) = f2 at h2 ⊢
  have h3 := fun i => row f2 f2 3 (by norm_num) (YES (1#32 <<< 5)) i
  generalize (if FLAGP f2 (YES (1#32 <<< 3)) ≠ 0 then OP f2 (YES (1#32 <<< 5)) else f2) = f3 at h3 ⊢
  have h4 := fun i => row f3 f3 6 (by norm_num) (NO (1#32 <<< 5)) i
  generalize (if FLAGP f3 (YES (1#32 <<< 6)) ≠ 0 then OP f3 (NO (1#32 <<< 5)) else f3) = f4 at h4 ⊢
  have h5 := fun i => row f4 f4 6 (by norm_num) (YES (FFTW_ESTIMATE_PATIENT ||| FFTW_NO_INDIRECT_OP ||| FFTW_ALLOW_PRUNING)) i
  generalize (if FLAGP f4 (YES (1#32 <<< 6)) ≠ 0 then OP f4 (YES (FFTW_ESTIMATE_PATIENT ||| FFTW_NO_INDIRECT_OP ||| FFTW_ALLOW_PRUNING)) else f4) = f5 at h5 ⊢
  have h6 := fun i => rowN f5 f5 3 (by norm_num) (YES FFTW_NO_SLOW) i
  generalize (if FLAGP f5 (NO (1#32 <<< 3)) ≠ 0 then OP f5 (YES FFTW_NO_SLOW) else f5) = f6 at h6 ⊢
  rw [rowN f6 f6 5 (by norm_num)]
  simp only [bit_yes, bit_no, BitVec.getLsbD_or, FFTW_ESTIMATE_PATIENT, FFTW_NO_INDIRECT_OP, FFTW_ALLOW_PRUNING, FFTW_NO_SLOW,
    FFTW_NO_VRECURSE, FFTW_NO_RANK_SPLITS, FFTW_NO_VRANK_SPLITS, FFTW_NO_NONTHREADED, FFTW_NO_DFT_R2HC, FFTW_NO_FIXED_RADIX_LARGE_N,
    FFTW_BELIEVE_PCOST] at *
  have one : ∀ k i, i < 32 → (1#32 <<< k).getLsbD i = decide (i = k) := getLsbD_one_shl
  generalize hb : (fun i => f.getLsbD i) = b
  have hb' : ∀ i, f.getLsbD i = b i := fun i => congrFun hb i
  simp only [hb'] at h1
  have h1' : ∀ i, i < 32 → f1.getLsbD i = if i = 0 then b 0 && !b 4 else b i := by
    intro i hi; rw [h1, one _ _ hi]
    by_cases h : i = 0
    · subst h; cases b 4 <;> simp
    · simp [h]
  have h2' : ∀ i, i < 32 → f2.getLsbD i = if i = 4 then b 4 || !b 0 else if i = 0 then b 0 && !b 4 else b i := by
    intro i hi; rw [h2, one _ _ hi, h1' i hi, h1' 0 (by norm_num)]
    by_cases h : i = 4
    · subst h; cases b 4 <;> cases b 0 <;> simp
    · simp [h]
  have h3' : ∀ i, i < 32 → f3.getLsbD i = if i = 5 then b 5 || b 3 else if i = 4 then b 4 || !b 0 else if i = 0 then b 0 && !b 4 else b i := by
    intro i hi; rw [h3, one _ _ hi, h2' i hi, h2' 3 (by norm_num)]
    by_cases h : i = 5
    · subst h; cases b 3 <;> simp
    · simp [h]
  have h4' : ∀ i, i < 32 → f4.getLsbD i = if i = 5 then (b 5 || b 3) && !b 6 else if i = 4 then b 4 || !b 0 else if i = 0 then b 0 && !b 4 else b i := by
    intro i hi; rw [h4, one _ _ hi, h3' i hi, h3' 6 (by norm_num)]
    by_cases h : i = 5
    · subst h; cases b 6 <;> simp
    · simp [h]
  have h5' : ∀ i, i < 32 → f5.getLsbD i = ((if i = 5 then (b 5 || b 3) && !b 6 else if i = 4 then b 4 || !b 0 else if i = 0 then b 0 && !b 4 else b i)
      || (b 6 && decide (i = 7 ∨ i = 12 ∨ i = 20))) := by
    intro i hi; rw [h5, one _ _ hi, one _ _ hi, one _ _ hi, h4' i hi, h4' 6 (by norm_num)]
    cases b 6 <;> simp [Bool.or_assoc]
  have h6' : ∀ i, i < 32 → f6.getLsbD i = ((if i = 5 then (b 5 || b 3) && !b 6 else if i = 4 then b 4 || !b 0 else if i = 0 then b 0 && !b 4 else b i)
      || (b 6 && decide (i = 7 ∨ i = 12 ∨ i = 20)) || (!b 3 && decide (i = 18))) := by
    intro i hi; rw [h6, one _ _ hi, h5' i hi, h5' 3 (by norm_num)]
    cases b 3 <;> simp [Bool.or_assoc]
  rw [h6' i hi, h6' 5 (by norm_num)]
  simp only [one, hi]
  clear h1 h2 h3 h4 h5 h6 h1' h2' h3' h4' h5' h6' hb' hb one
  interval_cases i
  all_goals simp only [selfBit, Nat.reduceEqDiff, decide_true, decide_false, if_true, if_false]
  all_goals (cases b 0 <;> cases b 3 <;> cases b 4 <;> cases b 5 <;> cases b 6 <;> simp)

/-- value of bit `i` of `l` -/
def lBit (b : Nat → Bool) (i : Nat) : Bool :=
  match i with
  | 12 => b 4
  | 13 => b 17
  | 14 => b 2
  | 10 => b 11
  | 6 => !b 13
  | _ => false

/-- value of bit `i` of `u` -/
def uBit (b : Nat → Bool) (i : Nat) : Bool :=
  match i with
  | 16 => !b 3
  | 1 => b 7
  | 17 => b 20
  | 0 => b 8
  | 2 => b 9
  | 9 => b 10
  | 5 => b 12
  | 7 => b 14
  | 8 => b 15
  | 4 => b 16
  | 3 => b 18
  | 11 => b 19
  | _ => false

/-- a pair of rows `EQV(1<<k, 1<<j)` copies bit `k` into bit `j` -/
theorem eqv_bits (f o : U32) (k j : Nat) (hk : k < 32) (i : Nat) (hi : i < 32) :
    (mapFlags f o (EQV (1#32 <<< k) (1#32 <<< j))).getLsbD i = if i = j then f.getLsbD k else o.getLsbD i := by
  simp only [mapFlags, EQV, IMPLIES, List.cons_append, List.nil_append, List.foldl_cons, List.foldl_nil]
  rw [rowN f _ k hk]
  have := fun i => row f o k hk (YES (1#32 <<< j)) i
  generalize (if FLAGP f (YES (1#32 <<< k)) ≠ 0 then OP o (YES (1#32 <<< j)) else o) = o1 at *
  rw [bit_no, this i, bit_yes, getLsbD_one_shl _ _ hi]
  by_cases h : i = j <;> cases f.getLsbD k <;> simp [h]

theorem neqv_bits (f o : U32) (k j : Nat) (hk : k < 32) (i : Nat) (hi : i < 32) :
    (mapFlags f o (NEQV (1#32 <<< k) (1#32 <<< j))).getLsbD i = if i = j then !f.getLsbD k else o.getLsbD i := by
  simp only [mapFlags, NEQV, IMPLIES, List.cons_append, List.nil_append, List.foldl_cons, List.foldl_nil]
  rw [rowN f _ k hk]
  have := fun i => row f o k hk (NO (1#32 <<< j)) i
  generalize (if FLAGP f (YES (1#32 <<< k)) ≠ 0 then OP o (NO (1#32 <<< j)) else o) = o1 at *
  rw [bit_yes, this i, bit_no, getLsbD_one_shl _ _ hi]
  by_cases h : i = j <;> cases f.getLsbD k <;> simp [h]

theorem mapFlags_append (f o : U32) (a b : List FlagOp) : mapFlags f o (a ++ b) = mapFlags f (mapFlags f o a) b := by
  simp [mapFlags, List.foldl_append]

theorem mapFlags_nil (f o : U32) : mapFlags f o [] = o := rfl

theorem l_bits (f : U32) (i : Nat) (hi : i < 32) : (mapFlags f 0 lFlagmap).getLsbD i = lBit (fun i => f.getLsbD i) i := by
  simp only [lFlagmap, List.flatten_cons, List.flatten_nil, mapFlags_append, mapFlags_nil,
    FFTW_PRESERVE_INPUT, FFTW_NO_SIMD, FFTW_CONSERVE_MEMORY, FFTW_NO_BUFFERING, FFTW_ALLOW_LARGE_GENERIC,
    show NO_DESTROY_INPUT = 1#32 <<< 12 from rfl, show NO_SIMD = 1#32 <<< 13 from rfl, show CONSERVE_MEMORY = 1#32 <<< 14 from rfl,
    show NO_BUFFERING = 1#32 <<< 10 from rfl, show NO_LARGE_GENERIC = 1#32 <<< 6 from rfl]
  rw [neqv_bits _ _ _ _ (by norm_num) _ hi]
  iterate 4 rw [eqv_bits _ _ _ _ (by norm_num) _ hi]
  have h0 : (0 : U32).getLsbD i = false := by simp
  rw [h0]
  interval_cases i <;> simp [lBit]

theorem u_bits (f : U32) (i : Nat) (hi : i < 32) : (mapFlags f 0 uFlagmap).getLsbD i = uBit (fun i => f.getLsbD i) i := by
  simp only [uFlagmap, List.flatten_cons, List.flatten_nil, mapFlags_append, mapFlags_nil,
    FFTW_EXHAUSTIVE, FFTW_ESTIMATE_PATIENT, FFTW_ALLOW_PRUNING, FFTW_BELIEVE_PCOST, FFTW_NO_DFT_R2HC, FFTW_NO_NONTHREADED, FFTW_NO_INDIRECT_OP,
    FFTW_NO_RANK_SPLITS, FFTW_NO_VRANK_SPLITS, FFTW_NO_VRECURSE, FFTW_NO_SLOW, FFTW_NO_FIXED_RADIX_LARGE_N,
    show ESTIMATE = 1#32 <<< 1 from rfl, show ALLOW_PRUNING = 1#32 <<< 17 from rfl, show BELIEVE_PCOST = 1#32 <<< 0 from rfl,
    show NO_DFT_R2HC = 1#32 <<< 2 from rfl, show NO_NONTHREADED = 1#32 <<< 9 from rfl, show NO_INDIRECT_OP = 1#32 <<< 5 from rfl,
    show NO_RANK_SPLITS = 1#32 <<< 7 from rfl, show NO_VRANK_SPLITS = 1#32 <<< 8 from rfl, show NO_VRECURSE = 1#32 <<< 4 from rfl,
    show NO_SLOW = 1#32 <<< 3 from rfl, show NO_FIXED_RADIX_LARGE_N = 1#32 <<< 11 from rfl, show NO_UGLY = 1#32 <<< 16 from rfl]
  iterate 11 rw [eqv_bits _ _ _ _ (by norm_num) _ hi]
  have h0 : (mapFlags f (mapFlags f 0 (IMPLIES (YES (1#32 <<< 3)) (NO 4294967295))) (IMPLIES (NO (1#32 <<< 3)) (YES (1#32 <<< 16)))).getLsbD i =
      (!f.getLsbD 3 && decide (i = 16)) := by
    simp only [mapFlags, IMPLIES, List.foldl_cons, List.foldl_nil]
    rw [rowN f _ 3 (by norm_num)]
    have := fun i => row f 0 3 (by norm_num) (NO 4294967295) i
    generalize (if FLAGP f (YES (1#32 <<< 3)) ≠ 0 then OP 0 (NO 4294967295) else 0) = o1 at *
    rw [bit_yes, this i, bit_no, getLsbD_one_shl _ _ hi]
    have h0 : (0 : U32).getLsbD i = false := by simp
    rw [h0]
    cases f.getLsbD 3 <;> simp
  rw [h0]
  interval_cases i <;> simp [uBit]

/-! ### time limits -/

theorem timelimit_ok (t : ℝ) : ∃ n, timelimitToFlags t = some n ∧ n < 512 := by
  unfold timelimitToFlags
  simp only []
  split
  · exact ⟨0, rfl, by norm_num⟩
  · split
    · exact ⟨511, rfl, by norm_num⟩
    · rename_i h1 h2
      push Not at h1 h2
      obtain ⟨h0, h1⟩ := h1
      have htpos : 0 < t := lt_trans (by norm_num) h2
      have hq : 1 ≤ 365 * 24 * 3600 / t := by rw [le_div_iff₀ htpos]; linarith
      have hq2 : 365 * 24 * 3600 / t ≤ 2 ^ 60 := by
        rw [div_le_iff₀ htpos]
        have : (2 : ℝ) ^ 60 * 1.0e-10 ≤ 2 ^ 60 * t := by
          apply mul_le_mul_of_nonneg_left h2.le (by positivity)
        refine le_trans ?_ this
        norm_num
      have hlog0 : 0 ≤ Real.log (365 * 24 * 3600 / t) := Real.log_nonneg hq
      have hlogs : (1 : ℝ) / 21 ≤ Real.log 1.05 := by
        have := Real.one_sub_inv_le_log_of_pos (show (0 : ℝ) < 1.05 by norm_num)
        refine le_trans ?_ this
        norm_num
      have hlog2 : Real.log (365 * 24 * 3600 / t) ≤ 60 := by
        refine le_trans (Real.log_le_log (by linarith) hq2) ?_
        rw [Real.log_pow]
        have := Real.log_le_sub_one_of_pos (show (0 : ℝ) < 2 by norm_num)
        push_cast
        linarith
      have hd0 : 0 ≤ Real.log (365 * 24 * 3600 / t) / Real.log 1.05 := div_nonneg hlog0 (by linarith)
      have hd2 : Real.log (365 * 24 * 3600 / t) / Real.log 1.05 ≤ 1260 := by
        rw [div_le_iff₀ (by linarith)]; linarith
      have : toInt (0.5 + Real.log (365 * 24 * 3600 / t) / Real.log 1.05) = some ⌊0.5 + Real.log (365 * 24 * 3600 / t) / Real.log 1.05⌋ := by
        unfold toInt
        have hx : 0 ≤ 0.5 + Real.log (365 * 24 * 3600 / t) / Real.log 1.05 := by linarith
        simp only [hx, if_true]
        have ha : 0 ≤ ⌊0.5 + Real.log (365 * 24 * 3600 / t) / Real.log 1.05⌋ := Int.floor_nonneg.2 (by linarith)
        have hb : ⌊0.5 + Real.log (365 * 24 * 3600 / t) / Real.log 1.05⌋ < 2000 := by
          rw [Int.floor_lt]; push_cast; linarith
        rw [if_pos (by constructor <;> omega)]
      rw [this]
      simp only [Option.bind_eq_bind, Option.bind_some]
      refine ⟨_, rfl, ?_⟩
      split <;> split <;> omega

theorem timelimit_mono (s t : ℝ) (hs : 0 ≤ s) (hst : s ≤ t) (m n : Nat) (hm : timelimitToFlags s = some m) (hn : timelimitToFlags t = some n) :
    n ≤ m := by
  have hm2 := timelimit_ok s
  have hn2 := timelimit_ok t
  obtain ⟨m', hm', hm2⟩ := hm2
  obtain ⟨n', hn', hn2⟩ := hn2
  rw [hm] at hm'; rw [hn] at hn'
  obtain rfl := Option.some.inj hm'
  obtain rfl := Option.some.inj hn'
  unfold timelimitToFlags at hm hn
  simp only [] at hm hn
  by_cases ht : t < 0 ∨ t ≥ 365 * 24 * 3600
  · rw [if_pos ht] at hn
    obtain rfl := Option.some.inj hn
    omega
  · rw [if_neg ht] at hn
    push Not at ht
    rw [if_neg (by push Not; constructor <;> linarith)] at hm
    by_cases hs2 : s ≤ 1.0e-10
    · rw [if_pos hs2] at hm
      have : m = 511 := (Option.some.inj hm).symm
      omega
    · push Not at hs2
      rw [if_neg (by push Not; linarith)] at hm hn
      have hspos : 0 < s := lt_trans (by norm_num) hs2
      have hlog : Real.log (365 * 24 * 3600 / t) / Real.log 1.05 ≤ Real.log (365 * 24 * 3600 / s) / Real.log 1.05 := by
        apply div_le_div_of_nonneg_right
        · apply Real.log_le_log
          · apply div_pos (by norm_num); linarith
          · apply div_le_div_of_nonneg_left (by norm_num) hspos hst
        · exact Real.log_nonneg (by norm_num)
      have hnn : ∀ r : ℝ, 0 < r → r < 365 * 24 * 3600 → 0 ≤ 0.5 + Real.log (365 * 24 * 3600 / r) / Real.log 1.05 := by
        intro r hr hr2
        have : 0 ≤ Real.log (365 * 24 * 3600 / r) := Real.log_nonneg (by rw [le_div_iff₀ hr]; linarith)
        have : 0 ≤ Real.log (365 * 24 * 3600 / r) / Real.log 1.05 := div_nonneg this (Real.log_nonneg (by norm_num))
        linarith
      have key : ∀ r : ℝ, 0 ≤ r → ∀ v, (toInt r >>= fun x => some (if (if x < 0 then 0 else x) ≥ 512 then (512 : Int) - 1 else (if x < 0 then 0 else x)).toNat) = some v →
          v = (min ⌊r⌋ 511).toNat := by
        intro r hr v hv
        unfold toInt at hv
        rw [if_pos hr] at hv
        simp only [] at hv
        have : 0 ≤ ⌊r⌋ := Int.floor_nonneg.2 hr
        split at hv
        · simp only [Option.bind_eq_bind, Option.bind_some] at hv
          rw [← Option.some.inj hv]
          split <;> split <;> omega
        · simp at hv
      have e1 := key _ (hnn s hspos (by linarith)) m hm
      have e2 := key _ (hnn t (by linarith) ht.2) n hn
      rw [e1, e2]
      have : ⌊0.5 + Real.log (365 * 24 * 3600 / t) / Real.log 1.05⌋ ≤ ⌊0.5 + Real.log (365 * 24 * 3600 / s) / Real.log 1.05⌋ :=
        Int.floor_le_floor (by linarith)
      omega

end FFTW.MapFlags
