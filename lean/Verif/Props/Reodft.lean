import Verif.Spec.R2r
import Verif.Proofs.Reodft11
import Verif.Proofs.Reodft11Odd
import Verif.Proofs.ReodftSplit2
import Verif.Props.DftSolvers

/-!
# C35: trigonometric transforms compute their definitions
-/

namespace FFTW.Reodft
open Tensor Spec Finset RdftS DftS

variable [CLib]

omit [CLib] in
/-- the kernel used in the contracts of plans says what the manual says -/
theorem C35_kernel_is_documented {kd : RKind} {n : ℕ} (hn : 0 < n) (h2 : kd = .REDFT00 → 2 ≤ n) (x : ℕ → ℝ) (k : ℕ) :
    ∑ j ∈ range n, rK kd n j k * x j = docR2r kd n x k := by
  cases kd with
  | REDFT00 =>
    have h2 := h2 rfl
    obtain ⟨m, rfl⟩ : ∃ m, n = m + 2 := ⟨n - 2, by omega⟩
    show _ = x 0 + (-1) ^ k * x (m + 1) + 2 * ∑ j ∈ Ico 1 (m + 1), x j * _
    rw [sum_range_succ, sum_range_succ', sum_Ico_eq_sum_range, mul_sum]
    simp only [rK, if_true, if_neg (show ¬ m + 1 = 0 by omega), Nat.add_sub_cancel, Nat.add_one_ne_zero, if_false, one_mul]
    rw [add_assoc, add_comm]
    congr 1
    refine sum_congr rfl fun j hj => ?_
    have := mem_range.1 hj
    rw [if_neg (by omega), add_comm 1 j]
    ring
  | REDFT10 => simp only [docR2r, rK, mul_sum]; exact sum_congr rfl fun j _ => by ring
  | REDFT01 =>
    obtain ⟨m, rfl⟩ : ∃ m, n = m + 1 := ⟨n - 1, by omega⟩
    simp only [docR2r, rK]
    rw [sum_range_succ', sum_Ico_eq_sum_range, mul_sum, add_comm]
    simp only [if_true, Nat.add_sub_cancel, Nat.add_one_ne_zero, if_false, one_mul]
    congr 1
    exact sum_congr rfl fun j _ => by rw [add_comm 1 j]; ring
  | REDFT11 => simp only [docR2r, rK, mul_sum]; exact sum_congr rfl fun j _ => by ring
  | RODFT00 => simp only [docR2r, rK, mul_sum]; exact sum_congr rfl fun j _ => by ring
  | RODFT10 => simp only [docR2r, rK, mul_sum]; exact sum_congr rfl fun j _ => by ring
  | RODFT01 =>
    obtain ⟨m, rfl⟩ : ∃ m, n = m + 1 := ⟨n - 1, by omega⟩
    simp only [docR2r, rK, Nat.add_sub_cancel]
    rw [sum_range_succ, if_pos rfl, mul_sum, add_comm]
    congr 1
    refine sum_congr rfl fun j hj => ?_
    have := mem_range.1 hj
    rw [if_neg (by omega)]; ring
  | RODFT11 => simp only [docR2r, rK, mul_sum]; exact sum_congr rfl fun j _ => by ring
  | DHT => simp only [docR2r, rK]; exact sum_congr rfl fun j _ => by ring
  | _ => rfl

omit [CLib] in
theorem card2 (n m : ℕ) (s t : ℤ) : (offs [(n, s), (m, t)]).card = n * m := by
  simp [offs]

/-- C35: what a sound plan for (at most) one vector of trigonometric transforms does when it is run, in elementary terms: whatever the pointers
(equal iff they were equal at planning time) and the contents of memory, output `k` of transform `i` is the documented sum of the inputs of
transform `i` as they were, and nothing but the output (and, unless the plan must preserve it, the input) changes -/
theorem C35_sound_plans_compute {kd : RKind} {d v : Dim} {p : RdftP} {nd : Bool} {f : Ptr → Ptr → State → State}
    (hsz : p.sz = [(d, kd)]) (hv : p.vecsz = some [v]) (hs : FFTW.Sound nd (.rdft p) (.rdft f)) (hn : 0 < d.n) (h2 : kd = .REDFT00 → 2 ≤ d.n)
    (hout : ∀ i k i' k' : ℕ, i < v.n → k < d.n → i' < v.n → k' < d.n → (k : ℤ) * d.os + i * v.os = k' * d.os + i' * v.os → i = i' ∧ k = k')
    (hinp : nd = false ∨ p.I = p.O → ∀ i k i' k' : ℕ, i < v.n → k < d.n → i' < v.n → k' < d.n → (k : ℤ) * d.is + i * v.is = k' * d.is + i' * v.is → i = i' ∧ k = k')
    (heq : p.I = p.O → ∀ i k : ℕ, i < v.n → k < d.n → ∃ i' k' : ℕ, i' < v.n ∧ k' < d.n ∧ (k : ℤ) * d.is + i * v.is = k' * d.os + (i' : ℤ) * v.os)
    (I O : Ptr) (st : State) (hI : I.blk < st.next) (hO : O.blk < st.next) (hio : p.I = p.O → I = O)
    (hdis : p.I ≠ p.O → ∀ i k i' k' : ℕ, i < v.n → k < d.n → i' < v.n → k' < d.n → I + ((k : ℤ) * d.is + (i : ℤ) * v.is) ≠ O + ((k' : ℤ) * d.os + (i' : ℤ) * v.os)) :
    (∀ i < v.n, ∀ k < d.n, (f I O st).mem (O + ((k : ℤ) * d.os + (i : ℤ) * v.os)) = docR2r kd d.n (fun j => st.mem (I + ((j : ℤ) * d.is + (i : ℤ) * v.is))) k) ∧
    ∀ q : Ptr, q.blk < st.next → (∀ i < v.n, ∀ k < d.n, q ≠ O + ((k : ℤ) * d.os + (i : ℤ) * v.os)) →
      (nd = false → ∀ i < v.n, ∀ k < d.n, q ≠ I + ((k : ℤ) * d.is + (i : ℤ) * v.is)) → (f I O st).mem q = st.mem q := by
  have hs : GOK rK p.sz p.vecsz 0 0 (decide (p.I = p.O) && p.vecsz.isSome) nd f := hs
  rw [hsz, hv, Option.isSome_some, Bool.and_true] at hs
  have eo : outs (locT ℝ 0 0 [(d, kd)] (some [v])) = offs [(d.n, d.os), (v.n, v.os)] := by rw [outs_locT_real]; rfl
  have ei : ins (locT ℝ 0 0 [(d, kd)] (some [v])) = offs [(d.n, d.is), (v.n, v.is)] := by rw [ins_locT_real]; rfl
  have hmem : ∀ (s t x : ℤ), x ∈ offs [(d.n, s), (v.n, t)] ↔ ∃ i k : ℕ, i < v.n ∧ k < d.n ∧ x = (k : ℤ) * s + i * t := by
    intro s t x
    constructor
    · intro h
      obtain ⟨k, hk, i, hi, rfl⟩ := mem_offs2.1 h
      exact ⟨i, k, hi, hk, rfl⟩
    · rintro ⟨i, k, hi, hk, rfl⟩
      exact mem_offs2.2 ⟨k, hk, i, hi, rfl⟩
  have hnd : ∀ (s t : ℤ), (∀ i k i' k' : ℕ, i < v.n → k < d.n → i' < v.n → k' < d.n → (k : ℤ) * s + i * t = k' * s + i' * t → i = i' ∧ k = k') → (offs [(d.n, s), (v.n, t)]).Nodup := by
    intro s t h
    rw [Api.offs_boxes]
    refine (Api.nodup_boxes _).map_on ?_
    intro x hx y hy he
    simp only [List.map_cons, List.map_nil, Api.mem_boxes] at hx hy he
    obtain ⟨k, x2, hk, hx2, rfl⟩ := Api.box_cons.1 hx
    obtain ⟨i, x, hi, hx3, rfl⟩ := Api.box_cons.1 hx2
    obtain ⟨k', y2, hk', hy2, rfl⟩ := Api.box_cons.1 hy
    obtain ⟨i', y, hi', hy3, rfl⟩ := Api.box_cons.1 hy2
    obtain rfl : x = [] := List.length_eq_zero_iff.1 (by rw [Api.box_length hx3]; rfl)
    obtain rfl : y = [] := List.length_eq_zero_iff.1 (by rw [Api.box_length hy3]; rfl)
    simp only [Api.dot_cons, Api.dot_nil] at he
    obtain ⟨rfl, rfl⟩ := h i k i' k' hi hk hi' hk' (by linarith)
    rfl
  have hloc : p.I = p.O → offs [(d.n, d.is), (v.n, v.is)] = offs [(d.n, d.os), (v.n, v.os)] := by
    intro hp
    refine Multiset.eq_of_le_of_card_le ((Multiset.le_iff_subset (hnd _ _ (hinp (Or.inr hp)))).2 ?_) (by rw [card2, card2])
    intro x hx
    rw [hmem] at hx ⊢
    obtain ⟨i, k, hi, hk, rfl⟩ := hx
    exact heq hp i k hi hk
  obtain ⟨h1, h3⟩ := hs ⟨by rw [eo]; exact hnd _ _ hout, fun hn => by rw [ei]; exact hnd _ _ (hinp (Or.inl hn)), fun hp => by rw [ei, eo]; exact hloc (by simpa using hp), fun _ => rfl⟩ I O st
    ⟨hI, hO, fun hp => hio (by simpa using hp), fun hp a ha b hb => by
      rw [ei, hmem] at ha; rw [eo, hmem] at hb
      obtain ⟨i, k, hi, hk, rfl⟩ := ha
      obtain ⟨i', k', hi', hk', rfl⟩ := hb
      exact hdis (by simpa using hp) i k i' k' hi hk hi' hk'⟩
  refine ⟨fun i hi k hk => ?_, fun q hq hk hj => h1.mem q hq ?_⟩
  · have hm : ((i : ℤ) * v.is, (i : ℤ) * v.os) ∈ pairs (some [v]) := mem_pairs_cons.2 ⟨i, hi, 0, by simp [pairs, offs], by simp⟩
    have := h3 [((d, kd), k)] ⟨rfl, by simpa using hk⟩ _ hm
    rw [gOut_cons, gOut_nil] at this
    simp only [gSum, add_zero, val_r] at this
    rw [this, ← C35_kernel_is_documented hn h2]
  · rintro (⟨x, hx, e⟩ | ⟨hn, x, hx, e⟩)
    · rw [eo, hmem] at hx
      obtain ⟨i, k, hi, hk', rfl⟩ := hx
      exact hk i hi k hk' e
    · rw [ei, hmem] at hx
      obtain ⟨i, k, hi, hk', rfl⟩ := hx
      exact hj hn i hi k hk' e
/-! ### the six solvers

On every problem the planner may be asked to solve, whatever sound child plans the planner supplies, the plan returned is sound.  `Kosher` demands
that in-place trigonometric problems are not transposed; without that the claim is false, see `C35_inplace_transposed_wrong` below. -/

theorem C35_redft00_pad (taste : Taste) : (redft00Pad taste).Sound := redft00Pad_sound taste
theorem C35_rodft00_pad (taste : Taste) : (rodft00Pad taste).Sound := rodft00Pad_sound taste
theorem C35_reodft010 {cexp : ℕ → ℤ → ℝ × ℝ} (hc : ExactCexp cexp) (taste : Taste) : (reodft010 cexp taste).Sound := reodft010_sound hc taste
theorem C35_reodft11_radix2 {cexp : ℕ → ℤ → ℝ × ℝ} (hc : ExactCexp cexp) (taste : Taste) : (reodft11Radix2 cexp taste).Sound := reodft11Radix2_sound hc taste
theorem C35_reodft11_odd (taste : Taste) : (reodft11Odd taste).Sound := reodft11Odd_sound taste
theorem C35_reodft00_splitradix {cexp : ℕ → ℤ → ℝ × ℝ} (hc : ExactCexp cexp) (taste : Taste) : (reodft00Split cexp taste).Sound := reodft00Split_sound hc taste

/-- each of them makes plans -/
example (fl : Flags) (c : Plan) : (((redft00Pad fun _ _ => true).mkplan (.rdft ⟨[(⟨9, 1, 1⟩, .REDFT00)], some [⟨3, 9, 9⟩], ⟨0, 0⟩, ⟨0, 0⟩⟩) fl).answer c).isSome = true := by
  simp [redft00Pad, rdftSolver, tornk1, Mk.need, Mk.answer]
example (fl : Flags) (c : Plan) : (((rodft00Pad fun _ _ => true).mkplan (.rdft ⟨[(⟨9, 1, 1⟩, .RODFT00)], some [⟨3, 9, 9⟩], ⟨0, 0⟩, ⟨0, 0⟩⟩) fl).answer c).isSome = true := by
  simp [rodft00Pad, rdftSolver, tornk1, Mk.need, Mk.answer]
example (cexp : ℕ → ℤ → ℝ × ℝ) (fl : Flags) (c : Plan) : (((reodft010 cexp fun _ _ => true).mkplan (.rdft ⟨[(⟨9, 1, 1⟩, .RODFT10)], some [⟨3, 9, 9⟩], ⟨0, 0⟩, ⟨0, 0⟩⟩) fl).answer c).isSome = true := by
  simp [reodft010, rdftSolver, tornk1, Mk.need, Mk.answer]
example (cexp : ℕ → ℤ → ℝ × ℝ) (fl : Flags) (c : Plan) : (((reodft11Radix2 cexp fun _ _ => true).mkplan (.rdft ⟨[(⟨8, 1, 1⟩, .RODFT11)], some [], ⟨0, 0⟩, ⟨1, 0⟩⟩) fl).answer c).isSome = true := by
  simp [reodft11Radix2, rdftSolver, tornk1, Mk.need, Mk.answer]
example (fl : Flags) (c : Plan) : (((reodft11Odd fun _ _ => true).mkplan (.rdft ⟨[(⟨9, 1, 1⟩, .REDFT11)], some [], ⟨0, 0⟩, ⟨1, 0⟩⟩) fl).answer c).isSome = true := by
  simp [reodft11Odd, rdftSolver, tornk1, Mk.need, Mk.answer]
example (cexp : ℕ → ℤ → ℝ × ℝ) (fl : Flags) (c : Plan) : (((reodft00Split cexp fun _ _ => true).mkplan (.rdft ⟨[(⟨9, 1, 1⟩, .REDFT00)], some [], ⟨0, 0⟩, ⟨1, 0⟩⟩) fl).answer c).isSome = true := by
  simp [reodft00Split, rdftSolver, tornk1, Mk.need, Mk.answer]

/-! ### a defect of the code -/

/-- two transforms of size 2, in place, input row-major, output column-major -/
def badP : RdftP := ⟨[(⟨2, 1, 2⟩, .REDFT10)], some [⟨2, 2, 1⟩], ⟨0, 0⟩, ⟨0, 0⟩⟩

/-- a plan for a real DFT of size 2 on a buffer -/
noncomputable def hc2 : Plan := .rdft fun I O st =>
  let a := st.mem I
  let b := st.mem (I + (1 : ℤ))
  (st.set O (a + b)).set (O + (1 : ℤ)) (a - b)

omit [CLib] in
theorem hc2_ok : R1 .R2HC00 2 1 1 true true hc2.rdftApply := by
  intro _ _ I O st bI bO hin _
  obtain ⟨rfl, -⟩ := hin rfl
  have hne : I ≠ I + (1 : ℤ) := fun h => by
    have := congrArg Ptr.off h
    have : I.off = I.off + 1 := this
    omega
  refine ⟨le_refl _, fun q hq hk _ => ?_, fun k hk => ?_⟩
  · show ((st.set I _).set (I + (1 : ℤ)) _).mem q = _
    rw [State.set_mem_ne _ (by simpa using hk 1 (by omega)), State.set_mem_ne _ (by simpa [ptr_add_zero] using hk 0 (by omega))]
  · show ((st.set I _).set (I + (1 : ℤ)) _).mem _ = _
    rw [sum_range_succ, sum_range_one]
    interval_cases k
    · simp only [Nat.cast_zero, zero_mul, ptr_add_zero]
      rw [State.set_mem_ne _ hne, State.set_mem_same]
      simp [rK, r2hcK]
    · simp only [Nat.cast_zero, zero_mul, ptr_add_zero, Nat.cast_one, mul_one]
      rw [State.set_mem_same]
      have : Real.cos (2 * Real.pi * 1 * 1 / 2) = -1 := by rw [show 2 * Real.pi * 1 * 1 / 2 = Real.pi by ring, Real.cos_pi]
      simp [rK, r2hcK, this]
      ring

/-- one transform of size 2 with output stride 2 by reodft010e, whatever the overlap -/
theorem bad_body {cexp : ℕ → ℤ → ℝ × ℝ} (hc : ExactCexp cexp) : R1x .REDFT10 2 1 2 (body010 cexp 2 1 2 hc2 .REDFT10) :=
  R1_prepostX (K := .REDFT10) (re10Pre_fill (by omega)) hc2_ok.inBuf (post_fill (re10Post_fill (by omega) fun i hi => W010_spec hc (by omega) hi))
    (fun x y hy k hk => redft10_math (by omega) x y hy hk)

theorem qsort1 (cmp : Dim → Dim → Int) (d : Dim) : CLib.qsort cmp [d] = [d] := List.perm_singleton.1 (CLib.perm cmp [d])

theorem qsort2 {a b : Dim} (h : compareByIstride b a > 0) : CLib.qsort compareByIstride [a, b] = [a, b] ∧ CLib.qsort compareByIstride [b, a] = [a, b] := by
  have key : ∀ l : List Dim, l.Perm [a, b] → (l.Pairwise fun a b => compareByIstride a b ≤ 0) → l = [a, b] := by
    intro l hl hp
    have hlen := hl.length_eq
    match l, hlen with
    | [x, y], _ =>
      have hx : x ∈ [a, b] := hl.subset (by simp)
      simp only [List.mem_cons, List.not_mem_nil, or_false] at hx
      rcases hx with rfl | rfl
      · have := List.perm_singleton.1 ((List.perm_cons x).1 hl); rw [this]
      · exfalso
        have := List.perm_singleton.1 ((List.perm_cons x).1 (hl.trans (List.Perm.swap x a [])))
        obtain rfl : y = a := by simpa using this
        simp at hp
        omega
  have ht : ∀ a b : Dim, compareByIstride a b ≤ 0 ∨ compareByIstride b a ≤ 0 := by
    intro a b; unfold compareByIstride signof; split_ifs <;> omega
  have htr : ∀ a b c : Dim, compareByIstride a b ≤ 0 → compareByIstride b c ≤ 0 → compareByIstride a c ≤ 0 := by
    intro a b c; unfold compareByIstride signof; split_ifs <;> omega
  exact ⟨key _ (CLib.perm _ _) (CLib.sorted _ _ ht htr), key _ ((CLib.perm _ _).trans (List.Perm.swap a b [])) (CLib.sorted _ _ ht htr)⟩

theorem mk_bad : mkproblemRdft [(⟨2, 1, 2⟩, .REDFT10)] (some [⟨2, 2, 1⟩]) ⟨0, 0⟩ ⟨0, 0⟩ = .rdft badP := by
  obtain ⟨q1, q2⟩ := qsort2 (a := ⟨2, 2, 2⟩) (b := ⟨2, 1, 1⟩) (by decide)
  simp [mkproblemRdft, inplaceLocations, append, copyInplace, Dim.inplace, tensorEqual, compressContiguous, tensorSz, reallyCompress, q1, q2, mergeLoop, stridesContig, canonicalize,
    nontrivial, RKind.reodft, exchangeSort, exchange, kind2, badP]

/-- C35, the missing check: like all solvers of reodft/ but the split-radix one, reodft010e accepts in-place problems whose vector strides differ
(the problem below is what `fftw_plan_guru_r2r` makes of a transposing in-place REDFT10); its plan overwrites inputs of transforms it has not done
yet, so the plan is wrong, although all other demands on problems are met -/
theorem C35_inplace_transposed_wrong {cexp : ℕ → ℤ → ℝ × ℝ} (hc : ExactCexp cexp) :
    ∃ p : RdftP, mkproblemRdft [(⟨2, 1, 2⟩, .REDFT10)] (some [⟨2, 2, 1⟩]) ⟨0, 0⟩ ⟨0, 0⟩ = .rdft p ∧ KosherR p ∧
      ¬ ((reodft010 cexp fun _ _ => true).mkplan (.rdft p) ⟨0, 0, 0, 1⟩).Good ⟨0, 0, 0, 1⟩ fun r => ∀ pl, r = some pl → FFTW.Sound false (.rdft p) pl := by
  refine ⟨badP, mk_bad, ?_, fun hG => ?_⟩
  · refine ⟨fun _ => ?_, fun h => absurd rfl h, by simp [badP], by simp [badP]⟩
    decide
  have h2 := hG.2 (some hc2) (by
    rintro _ ⟨⟩
    have e : mkproblemRdft [(⟨2, 1, 1⟩, .R2HC00)] (some []) (planBuf [badP.I, badP.O]) (planBuf [badP.I, badP.O]) = .rdft ⟨[(⟨2, 1, 1⟩, .R2HC00)], some [], planBuf [badP.I, badP.O], planBuf [badP.I, badP.O]⟩ := by
      simp [mkproblemRdft, inplaceLocations, append, copyInplace, Dim.inplace, tensorEqual, compressContiguous, tensorSz, reallyCompress, qsort1, canonicalize, nontrivial, exchangeSort, exchange, kind2]
    refine (congrArg (fun q => FFTW.Sound _ q hc2) e).mpr ?_
    refine soundRdft rfl ?_
    simp only [decide_true]
    exact GOK.weaken (by simp) (GOK_rank1R (d := ⟨2, 1, 1⟩) hc2_ok)) _ rfl
  set st : State := ⟨fun q => if q = ⟨0, 0⟩ then 1 else 0, 1⟩ with hst
  have sz : ∀ q : Ptr, q ≠ ⟨0, 0⟩ → st.mem q = 0 := fun q hq => if_neg hq
  obtain ⟨h3, -⟩ := C35_sound_plans_compute (d := ⟨2, 1, 2⟩) (v := ⟨2, 2, 1⟩) (p := badP) rfl rfl h2 (by decide) (by decide)
    (by intro i k i' k' hi hk hi' hk' e; simp only at *; omega) (by intro _ i k i' k' hi hk hi' hk' e; simp only at *; omega)
    (by intro _ i k hi hk; exact ⟨k, i, hk, hi, by simp only; ring⟩) ⟨0, 0⟩ ⟨0, 0⟩ st (by decide) (by decide) (fun _ => rfl) (fun h => absurd rfl h)
  have h4 := h3 1 (by decide) 0 (by decide)
  have hR : RInj 2 2 := by intro k k' _ _ e; omega
  obtain ⟨n1, f1, v1⟩ := bad_body hc hR ⟨0, 0⟩ ⟨0, 0⟩ st (by decide) (by decide)
  set st1 := body010 cexp 2 1 2 hc2 .REDFT10 ⟨0, 0⟩ ⟨0, 0⟩ st with hst1
  have n1' : 1 ≤ st1.next := n1
  obtain ⟨-, -, v2⟩ := bad_body hc hR ⟨0, 2⟩ ⟨0, 1⟩ st1 (by show 0 < st1.next; omega) (by show 0 < st1.next; omega)
  have e1 : vloop ⟨2, 2, 1⟩ (body010 cexp 2 1 2 hc2 .REDFT10) ⟨0, 0⟩ ⟨0, 0⟩ st = body010 cexp 2 1 2 hc2 .REDFT10 ⟨0, 2⟩ ⟨0, 1⟩ st1 := rfl
  have v20 := v2 0 (by omega)
  have v11 := v1 1 (by omega)
  rw [sum_range_succ, sum_range_one] at v20 v11
  have m3 : st1.mem ((⟨0, 2⟩ : Ptr) + ((1 : ℕ) : ℤ) * 1) = 0 := by
    rw [f1 _ (by show 0 < 1; omega) (by
      intro k hk e
      have e2 := congrArg Ptr.off e
      have e3 : (2 : ℤ) + 1 = 0 + (k : ℤ) * 2 := e2
      omega)]
    exact sz _ (by decide)
  have m2 : st1.mem ((⟨0, 2⟩ : Ptr) + ((0 : ℕ) : ℤ) * 1) = Real.sqrt 2 := by
    have : st1.mem ((⟨0, 0⟩ : Ptr) + ((1 : ℕ) : ℤ) * 2) = _ := v11
    rw [sz ((⟨0, 0⟩ : Ptr) + ((1 : ℕ) : ℤ) * 1) (by decide), mul_zero, add_zero] at this
    have e2 : st.mem ((⟨0, 0⟩ : Ptr) + ((0 : ℕ) : ℤ) * 1) = 1 := by rw [show ((⟨0, 0⟩ : Ptr) + ((0 : ℕ) : ℤ) * 1) = ⟨0, 0⟩ by decide, hst]; simp
    rw [e2, mul_one] at this
    refine Eq.trans (show _ = st1.mem ((⟨0, 0⟩ : Ptr) + ((1 : ℕ) : ℤ) * 2) from rfl) (this.trans ?_)
    show 2 * Real.cos (Real.pi * (((0 : ℕ) : ℝ) + 1 / 2) * ((1 : ℕ) : ℝ) / ((2 : ℕ) : ℝ)) = _
    rw [show Real.pi * (((0 : ℕ) : ℝ) + 1 / 2) * ((1 : ℕ) : ℝ) / ((2 : ℕ) : ℝ) = Real.pi / 4 by push_cast; ring, Real.cos_pi_div_four]
    ring
  rw [m3, m2, mul_zero, add_zero] at v20
  have e4 : docR2r .REDFT10 2 (fun j => st.mem ((⟨0, 0⟩ : Ptr) + ((j : ℤ) * 1 + ((1 : ℕ) : ℤ) * 2))) 0 = 0 := by
    have z : ∀ j : ℕ, st.mem ((⟨0, 0⟩ : Ptr) + ((j : ℤ) * 1 + ((1 : ℕ) : ℤ) * 2)) = 0 := fun j => sz _ (by
      intro e
      have e2 := congrArg Ptr.off e
      have e3 : (0 : ℤ) + ((j : ℤ) * 1 + 1 * 2) = 0 := e2
      omega)
    simp only [docR2r, z]
    simp
  have h5 : (0 : ℝ) = rK .REDFT10 2 0 0 * Real.sqrt 2 := by
    rw [← v20, ← e4]
    exact h4.symm
  have h6 : rK .REDFT10 2 0 0 = 2 := by simp [rK]
  rw [h6] at h5
  have := Real.sqrt_pos.2 (show (0 : ℝ) < 2 by norm_num)
  linarith

end FFTW.Reodft
