import Verif.Proofs.Transpose3
import Verif.Props.RegisteredR2r

/-!
# C33: in-place transposition of rectangular matrices
-/

namespace FFTW.RdftS
open Tensor Spec DftS Api RowMajor Planner Registered
open MapFlags (U32 FFTW_ESTIMATE)

/-- `st'` holds, in place of the row-major `n × m` matrix of `vl`-tuples that `st` holds at `p`, its transpose (row-major `m × n`); nothing else
that existed has changed -/
def Transposed (n m vl : ℕ) (p : Ptr) (st st' : State) : Prop :=
  (∀ i < n, ∀ j < m, ∀ v < vl, st'.mem (p + (((j * n + i) * vl + v : ℕ) : ℤ)) = st.mem (p + (((i * m + j) * vl + v : ℕ) : ℤ))) ∧
  OnlyChanges st st' fun q => ∃ w < n * m * vl, q = p + ((w : ℕ) : ℤ)

/-- **C33**, algorithm 513 (cycle following): it terminates and transposes, for every size and every length of its table of visited elements -/
theorem C33_toms513 {nx ny : ℕ} (hx : 2 ≤ nx) (hy : 2 ≤ ny) (N sz : ℕ) (a : Ptr) (st : State) :
    ∃ st', toms513 a nx ny N sz st = some st' ∧ Transposed nx ny N a st st' := by
  obtain ⟨st', h1, h2⟩ := toms513_run (N := N) (sz := sz) hx hy a st
  refine ⟨st', h1, fun i hi j hj v hv => ?_, by rw [h2.next], fun q _ hW => h2.other q fun x hx v hv e => hW ?_⟩
  · have := h2.tup (j * nx + i) (lt_radix hj hi) v hv
    rw [succT_mk (by omega) hi] at this
    unfold tupAt at this
    rw [ptr_nat, ptr_nat, Nat.mul_comm N, Nat.mul_comm N] at this
    exact this
  · unfold tupAt at e
    rw [ptr_nat, Nat.mul_comm N] at e
    exact ⟨_, by rw [Nat.mul_comm nx ny]; exact lt_radix hx hv, e⟩

section
variable [CLib]

/-- **C33**: each of the three solvers (gcd blocks, cut, algorithm 513) returns only plans that solve the problem, provided the plans it is given for
its sub-problems do -/
theorem C33_solvers (alg : Tr3) (taste : Taste) : (vrank3Transpose alg taste).Sound := vrank3Transpose_sound alg taste

/-- the loop dimensions describing the transposition -/
def transposeDims (n m vl : ℕ) : List IODim := [⟨n, m * vl, vl⟩, ⟨m, vl, n * vl⟩, ⟨vl, 1, 1⟩]

omit [CLib] in
theorem transpose_box {n m vl : ℕ} {b : List ℕ} (h : Box (guruB [] (transposeDims n m vl)).v b) : ∃ i j v, i < n ∧ j < m ∧ v < vl ∧ b = [i, j, v] := by
  obtain ⟨i, b0, hi, h0, rfl⟩ := box_cons.1 (show Box [(n : ℤ).toNat, (m : ℤ).toNat, (vl : ℤ).toNat] b from h)
  obtain ⟨j, b1, hj, h1, rfl⟩ := box_cons.1 h0
  obtain ⟨v, b2, hv, h2, rfl⟩ := box_cons.1 h1
  obtain rfl := box_nil.1 h2
  exact ⟨i, j, v, by simpa using hi, by simpa using hj, by simpa using hv, rfl⟩

omit [CLib] in
theorem transpose_inp (n m vl i j v : ℕ) : (guruB [] (transposeDims n m vl)).inp [i, j, v] [] = (((i * m + j) * vl + v : ℕ) : ℤ) := by
  simp [guruBatch, transposeDims, ofIo, dot]; ring
omit [CLib] in
theorem transpose_out (n m vl i j v : ℕ) : (guruB [] (transposeDims n m vl)).out [i, j, v] [] = (((j * n + i) * vl + v : ℕ) : ℤ) := by
  simp [guruBatch, transposeDims, ofIo, dot]; ring

omit [CLib] in
/-- the user's promises hold -/
theorem transpose_ok (n m vl : ℕ) (flags : U32) (p : Ptr) : R2rOk [] (guruB [] (transposeDims n m vl)) flags p p := by
  refine ⟨List.Forall₂.nil, ?_, fun _ => ?_, Or.inl rfl, by simp⟩
  · intro b k b' k' hb hk hb' hk' e
    obtain rfl := box_nil.1 hk
    obtain rfl := box_nil.1 hk'
    obtain ⟨i, j, v, hi, hj, hv, rfl⟩ := transpose_box hb
    obtain ⟨i', j', v', hi', hj', hv', rfl⟩ := transpose_box hb'
    rw [transpose_out, transpose_out, Nat.cast_inj] at e
    obtain ⟨e1, rfl⟩ := radix hv hv' e
    obtain ⟨rfl, rfl⟩ := radix hi hi' e1
    exact ⟨rfl, rfl⟩
  · intro b k b' k' hb hk hb' hk' e
    obtain rfl := box_nil.1 hk
    obtain rfl := box_nil.1 hk'
    obtain ⟨i, j, v, hi, hj, hv, rfl⟩ := transpose_box hb
    obtain ⟨i', j', v', hi', hj', hv', rfl⟩ := transpose_box hb'
    rw [transpose_inp, transpose_inp, Nat.cast_inj] at e
    obtain ⟨e1, rfl⟩ := radix hv hv' e
    obtain ⟨rfl, rfl⟩ := radix hj hj' e1
    exact ⟨rfl, rfl⟩

/-- **C33** for the user: a plan of `fftw_plan_guru_r2r` of rank 0 whose loops describe an in-place transposition transposes, whatever solvers the
planner chose; also when it is run on another array with `fftw_execute_r2r` -/
theorem C33_guru_transpose (env : Env) (hs : ∀ d ∈ env.slvdescs, d.slv.Sound) {chk : Int → C Int} (hc : ∀ x y, chk x = some y → y = x)
    {k n m vl : ℕ} {tl : ℝ} {flags : U32} {p : Ptr} {st0 st0' : PSt} {ap : ApiPlan}
    (h : planGuruR2r chk env k tl flags [] (transposeDims n m vl) p p [] st0 = .ok (some ap, st0')) {p' : Ptr} {st : State} (hp' : p'.blk < st.next) :
    Transposed n m vl p' st (executeR2r ap p' p' st) ∧ execute ap = executeR2r ap p p := by
  obtain ⟨⟨h1, h2⟩, h3⟩ := C53_guru_r2r env hs hc h (transpose_ok n m vl flags p) (inp' := p') (out' := p') (st := st) ⟨by simp, Or.inl rfl, hp', hp'⟩
  refine ⟨⟨fun i hi j hj v hv => ?_, h2.next, fun q hq hW => h2.mem q hq ?_⟩, h3⟩
  · have hb : Box (guruB [] (transposeDims n m vl)).v [i, j, v] := by
      refine box_cons.2 ⟨i, _, by simpa [ofIo] using hi, box_cons.2 ⟨j, _, by simpa [ofIo] using hj, box_cons.2 ⟨v, _, by simpa [ofIo] using hv, box_nil.2 rfl, rfl⟩, rfl⟩, rfl⟩
    have := h1 [i, j, v] [] hb (box_nil.2 rfl)
    beta_reduce at this
    rw [transpose_out] at this
    rw [this]
    show st.mem (p' + (guruB [] (transposeDims n m vl)).inp [i, j, v] []) = _
    rw [transpose_inp]
  · rintro (⟨x, ⟨b, k, hb, hk, rfl⟩, rfl⟩ | ⟨-, x, ⟨b, k, hb, hk, rfl⟩, rfl⟩)
    · obtain rfl := box_nil.1 hk
      obtain ⟨i, j, v, hi, hj, hv, rfl⟩ := transpose_box hb
      exact hW ⟨_, by rw [Nat.mul_comm n m]; exact tr_lt hj hi hv, by rw [transpose_out]⟩
    · obtain rfl := box_nil.1 hk
      obtain ⟨i, j, v, hi, hj, hv, rfl⟩ := transpose_box hb
      exact hW ⟨_, tr_lt hi hj hv, by rw [transpose_inp]⟩

end

/-! ### non-vacuity -/

attribute [local instance] sortLib

/-- a 3 × 5 matrix of pairs -/
def exTP : RdftP := ⟨[], some [⟨3, 10, 2⟩, ⟨5, 2, 6⟩, ⟨2, 1, 1⟩], ⟨0, 4⟩, ⟨0, 4⟩⟩
theorem exT_problem : guruR2rProblem some [] (transposeDims 3 5 2) ⟨0, 4⟩ ⟨0, 4⟩ [] = some (some (.rdft exTP)) := by
  with_unfolding_all rfl
def exTs : Solver := vrank3Transpose .toms513 fun _ _ => true
noncomputable def exTpl : Plan := .rdft (applyToms 3 5 2)

theorem exT_mk (fl : Flags) : exTs.mkplan (.rdft exTP) fl = .ret (some exTpl) := by
  rfl

theorem exT_plans : planGuruR2r some (oneE exTs) 1 (-1) FFTW_ESTIMATE [] (transposeDims 3 5 2) ⟨0, 4⟩ ⟨0, 4⟩ [] exS = .ok (some ⟨exTpl, .rdft exTP, 0⟩, exS6) := by
  unfold planGuruR2r planWith
  rw [exT_problem]
  dsimp only
  rw [one_plans exT_mk]

/-- all hypotheses of `C33_guru_transpose` are met -/
example (st : State) (h : 1 ≤ st.next) : Transposed 3 5 2 ⟨0, 4⟩ st (execute ⟨exTpl, .rdft exTP, 0⟩ st) := by
  obtain ⟨h1, h2⟩ := C33_guru_transpose (oneE exTs) (by
    intro d hd
    simp only [oneE, List.mem_singleton] at hd
    subst hd
    exact C33_solvers .toms513 (fun _ _ => true)) (fun x y h => (Option.some.inj h).symm) exT_plans (p' := ⟨0, 4⟩) (st := st) (by show 0 < st.next; omega)
  rw [h2]; exact h1

/-- the other two solvers ask for plans of smaller problems: 4 × 6 by blocks of 2 × 3 … -/
example (fl : Flags) (c : Plan) : (((vrank3Transpose .gcd fun _ _ => true).mkplan (.rdft ⟨[], some [⟨4, 6, 1⟩, ⟨6, 1, 4⟩], ⟨0, 0⟩, ⟨0, 0⟩⟩) fl).answer c).isSome = true := by
  have h : gcdC 4 6 = 2 := by rw [gcdC_eq _ _ (by norm_num)]; rfl
  simp [vrank3Transpose, rdftSolver, pickdim3, dimOrders, sameStr, transposable, ntupleTransposable, vecLen, vecStr, Tr3.applicable, h, Tr3.mk, mkGcd, Mk.needIf, Mk.need, Mk.answer]
/-- … and 20 × 19 cut to 19 × 19 -/
example (fl : Flags) (c : Plan) : (((vrank3Transpose .cut fun _ _ => true).mkplan (.rdft ⟨[], some [⟨19, 1, 20⟩, ⟨20, 19, 1⟩], ⟨0, 0⟩, ⟨0, 0⟩⟩) fl).answer c).isSome = true := by
  rfl

end FFTW.RdftS
