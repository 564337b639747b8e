import Verif.Proofs.Tr3Gcd
import Mathlib.Dynamics.PeriodicPts.Defs

/-!
# TOMS algorithm 513: the permutation and its cycles
-/

namespace FFTW.RdftS

section perm
variable {nx ny : ℕ}

theorem succT_mk {q r : ℕ} (hy : 0 < ny) (hr : r < nx) : succT nx ny (q * nx + r) = r * ny + q := by
  unfold succT
  rw [radix_div hr]
  obtain ⟨k, hk⟩ : ∃ k, ny * nx = k + 1 := ⟨ny * nx - 1, by have := Nat.mul_pos hy (show 0 < nx by omega); omega⟩
  have e1 : ny * (q * nx + r) = (ny * nx) * q + r * ny := by ring
  rw [e1, hk, Nat.add_sub_cancel]
  have e2 : (k + 1) * q + r * ny = k * q + (r * ny + q) := by ring
  rw [e2, Nat.add_sub_cancel_left]

/-- the subtraction never goes below zero -/
theorem succT_nonneg (x : ℕ) : (ny * nx - 1) * (x / nx) ≤ ny * x := by
  calc (ny * nx - 1) * (x / nx) ≤ ny * nx * (x / nx) := Nat.mul_le_mul_right _ (Nat.sub_le _ _)
    _ = ny * (nx * (x / nx)) := by ring
    _ ≤ ny * x := Nat.mul_le_mul_left _ (Nat.mul_div_le _ _)

theorem succT_lt {x : ℕ} (h : x < ny * nx) : succT nx ny x < ny * nx := by
  obtain ⟨q, r, hq, hr, rfl⟩ := radix_split h
  rw [succT_mk (by omega) hr, Nat.mul_comm ny nx]
  exact lt_radix hr hq

theorem succT_inj {x y : ℕ} (hx : x < ny * nx) (hy : y < ny * nx) (e : succT nx ny x = succT nx ny y) : x = y := by
  obtain ⟨q, r, hq, hr, rfl⟩ := radix_split hx
  obtain ⟨q', r', hq', hr', rfl⟩ := radix_split hy
  rw [succT_mk (by omega) hr, succT_mk (by omega) hr'] at e
  obtain ⟨rfl, rfl⟩ := radix hq hq' e
  rfl

theorem succT_comp {x : ℕ} (hx : x < ny * nx) : succT nx ny (ny * nx - 1 - x) = ny * nx - 1 - succT nx ny x := by
  obtain ⟨q, r, hq, hr, rfl⟩ := radix_split hx
  obtain ⟨q', hq'⟩ : ∃ q', ny = q + 1 + q' := ⟨ny - q - 1, by omega⟩
  obtain ⟨r', hr'⟩ : ∃ r', nx = r + 1 + r' := ⟨nx - r - 1, by omega⟩
  have e1 : ny * nx - 1 - (q * nx + r) = q' * nx + r' := by
    have : ny * nx = (q * nx + r) + 1 + (q' * nx + r') := by
      rw [hq']
      conv_lhs => rw [Nat.add_mul, Nat.add_mul, Nat.one_mul]
      omega
    omega
  rw [e1, succT_mk (by omega) hr, succT_mk (by omega) (by omega)]
  have : ny * nx = (r * ny + q) + 1 + (r' * ny + q') := by
    rw [Nat.mul_comm]
    conv_lhs => rw [hr', Nat.add_mul, Nat.add_mul, Nat.one_mul]
    omega
  omega

theorem iter_lt {x : ℕ} (h : x < ny * nx) (j : ℕ) : (succT nx ny)^[j] x < ny * nx := by
  induction j with
  | zero => exact h
  | succ j ih => rw [Function.iterate_succ_apply']; exact succT_lt ih

theorem iter_inj {x y : ℕ} (hx : x < ny * nx) (hy : y < ny * nx) (j : ℕ) (e : (succT nx ny)^[j] x = (succT nx ny)^[j] y) : x = y := by
  induction j with
  | zero => exact e
  | succ j ih =>
    rw [Function.iterate_succ_apply', Function.iterate_succ_apply'] at e
    exact ih (succT_inj (iter_lt hx j) (iter_lt hy j) e)

theorem iter_comp {x : ℕ} (hx : x < ny * nx) (j : ℕ) : (succT nx ny)^[j] (ny * nx - 1 - x) = ny * nx - 1 - (succT nx ny)^[j] x := by
  induction j with
  | zero => rfl
  | succ j ih => rw [Function.iterate_succ_apply', Function.iterate_succ_apply', ih, succT_comp (iter_lt hx j)]

theorem periodic {x : ℕ} (hx : x < ny * nx) : ∃ T, 0 < T ∧ (succT nx ny)^[T] x = x := by
  obtain ⟨a, b, hab, e⟩ : ∃ a b : ℕ, a < b ∧ (succT nx ny)^[a] x = (succT nx ny)^[b] x := by
    have : ¬ Function.Injective (fun j : ℕ => (⟨(succT nx ny)^[j] x, iter_lt hx j⟩ : Fin (ny * nx))) := not_injective_infinite_finite _
    rw [Function.Injective] at this
    push Not at this
    obtain ⟨a, b, e, hne⟩ := this
    have e' : (succT nx ny)^[a] x = (succT nx ny)^[b] x := congrArg Fin.val e
    rcases Nat.lt_or_gt_of_ne hne with h | h
    · exact ⟨a, b, h, e'⟩
    · exact ⟨b, a, h, e'.symm⟩
  refine ⟨b - a, by omega, ?_⟩
  have e2 : b = a + (b - a) := by omega
  rw [e2, Function.iterate_add_apply] at e
  exact (iter_inj hx (iter_lt hx _) a e).symm

/-- going on from an element one comes back to it -/
theorem iter_back {x : ℕ} (hx : x < ny * nx) (j : ℕ) : ∃ l, (succT nx ny)^[l] ((succT nx ny)^[j] x) = x := by
  obtain ⟨T, hT, e⟩ := periodic hx
  refine ⟨T * j - j, ?_⟩
  rw [← Function.iterate_add_apply, Nat.sub_add_cancel (Nat.le_mul_of_pos_left _ hT)]
  exact (Function.IsPeriodicPt.mul_const (show Function.IsPeriodicPt (succT nx ny) T x from e) j)

/-! the fixed points -/

theorem fixed_iff {q r : ℕ} (hx2 : 2 ≤ nx) (hr : r < nx) (hq : q < ny) : succT nx ny (q * nx + r) = q * nx + r ↔ (ny - 1) * r = (nx - 1) * q := by
  rw [succT_mk (by omega) hr]
  obtain ⟨a, rfl⟩ : ∃ a, ny = a + 1 := ⟨ny - 1, by omega⟩
  obtain ⟨b, rfl⟩ : ∃ b, nx = b + 1 := ⟨nx - 1, by omega⟩
  simp only [Nat.add_sub_cancel]
  have e1 : r * (a + 1) = a * r + r := by ring
  have e2 : q * (b + 1) = b * q + q := by ring
  rw [e1, e2]
  omega

theorem card_fixed (hx2 : 2 ≤ nx) (hy2 : 2 ≤ ny) :
    ((Finset.range (ny * nx)).filter fun x => succT nx ny x = x).card = Nat.gcd (ny - 1) (nx - 1) + 1 := by
  set g := Nat.gcd (ny - 1) (nx - 1) with hg
  have hgp : 0 < g := Nat.gcd_pos_of_pos_left _ (by omega)
  obtain ⟨u, hu⟩ : ∃ u, ny - 1 = g * u := Nat.gcd_dvd_left _ _
  obtain ⟨w, hw⟩ : ∃ w, nx - 1 = g * w := Nat.gcd_dvd_right _ _
  have hup : 0 < u := by rcases Nat.eq_zero_or_pos u with rfl | h; · simp at hu; omega
                         · exact h
  have hwp : 0 < w := by rcases Nat.eq_zero_or_pos w with rfl | h; · simp at hw; omega
                         · exact h
  have hco : Nat.Coprime u w := by
    have := Nat.coprime_div_gcd_div_gcd (m := ny - 1) (n := nx - 1) (hg ▸ hgp)
    rw [← hg, hu, hw, Nat.mul_div_cancel_left _ hgp, Nat.mul_div_cancel_left _ hgp] at this
    exact this
  have himg : (Finset.range (ny * nx)).filter (fun x => succT nx ny x = x) = (Finset.range (g + 1)).image fun t => u * t * nx + w * t := by
    ext x
    simp only [Finset.mem_filter, Finset.mem_range, Finset.mem_image]
    constructor
    · rintro ⟨hx, e⟩
      obtain ⟨q, r, hq, hr, rfl⟩ := radix_split hx
      rw [fixed_iff hx2 hr hq, hu, hw] at e
      have e2 : u * r = w * q := Nat.eq_of_mul_eq_mul_left hgp (by rw [← Nat.mul_assoc, ← Nat.mul_assoc]; exact e)
      obtain ⟨t, ht⟩ : u ∣ q := (hco.dvd_of_dvd_mul_left (⟨r, by rw [e2]⟩ : u ∣ w * q))
      have hr' : r = w * t := by
        rw [ht] at e2
        exact Nat.eq_of_mul_eq_mul_left hup (by rw [e2]; ring)
      refine ⟨t, ?_, by rw [hr', ht]⟩
      by_contra hc
      have : u * (g + 1) ≤ u * t := Nat.mul_le_mul_left _ (by omega)
      rw [← ht, Nat.mul_add, Nat.mul_comm u g, ← hu] at this
      omega
    · rintro ⟨t, ht, rfl⟩
      have h1 : w * t < nx := by
        have : w * t ≤ w * g := Nat.mul_le_mul_left _ (by omega)
        rw [Nat.mul_comm w g, ← hw] at this; omega
      have h2 : u * t < ny := by
        have : u * t ≤ u * g := Nat.mul_le_mul_left _ (by omega)
        rw [Nat.mul_comm u g, ← hu] at this; omega
      refine ⟨lt_radix h2 h1, (fixed_iff hx2 h1 h2).2 ?_⟩
      rw [hu, hw]; ring
  rw [himg, Finset.card_image_of_injective, Finset.card_range]
  intro a b e
  have e' : (u * nx + w) * a = (u * nx + w) * b := by
    have : u * a * nx + w * a = u * b * nx + w * b := e
    calc _ = u * a * nx + w * a := by ring
      _ = u * b * nx + w * b := this
      _ = _ := by ring
  exact Nat.eq_of_mul_eq_mul_left (by omega) e'

/-! ### one cycle and its companion -/

/-- how far one has to go from `i` to come to `i` or to `k - i` -/
structure CycLen (nx ny i t : ℕ) : Prop where
  last : (succT nx ny)^[t + 1] i = i ∨ (succT nx ny)^[t + 1] i = ny * nx - 1 - i
  before : ∀ j, 1 ≤ j → j ≤ t → (succT nx ny)^[j] i ≠ i ∧ (succT nx ny)^[j] i ≠ ny * nx - 1 - i

theorem exists_cycLen {i : ℕ} (hi : i < ny * nx) : ∃ t, CycLen nx ny i t := by
  classical
  have hex : ∃ t, (succT nx ny)^[t + 1] i = i ∨ (succT nx ny)^[t + 1] i = ny * nx - 1 - i := by
    obtain ⟨T, hT, e⟩ := periodic hi
    exact ⟨T - 1, Or.inl (by rw [Nat.sub_add_cancel hT]; exact e)⟩
  refine ⟨Nat.find hex, Nat.find_spec hex, ?_⟩
  intro j h1 h2
  have := Nat.find_min hex (m := j - 1) (by omega)
  rw [Nat.sub_add_cancel h1] at this
  push Not at this
  exact this

/-- the elements visited so far, with their mirror images -/
def Dn (nx ny i s x : ℕ) : Prop := ∃ j < s, x = (succT nx ny)^[j] i ∨ x = ny * nx - 1 - (succT nx ny)^[j] i

/-- no element is visited twice -/
theorem CycLen.ne {i t : ℕ} (hi : i < ny * nx) (h : CycLen nx ny i t) {s j : ℕ} (hs : s ≤ t) (hj : j < s) :
    (succT nx ny)^[s] i ≠ (succT nx ny)^[j] i ∧ (succT nx ny)^[s] i ≠ ny * nx - 1 - (succT nx ny)^[j] i := by
  have e : s = j + (s - j) := by omega
  obtain ⟨b1, b2⟩ := h.before (s - j) (by omega) (by omega)
  constructor
  · intro he
    rw [e, Function.iterate_add_apply] at he
    exact b1 (iter_inj (iter_lt hi _) hi j he)
  · intro he
    rw [← iter_comp hi, e, Function.iterate_add_apply] at he
    exact b2 (iter_inj (iter_lt hi _) (by omega) j he)

theorem Dn.succ {i s x : ℕ} : Dn nx ny i (s + 1) x ↔ Dn nx ny i s x ∨ x = (succT nx ny)^[s] i ∨ x = ny * nx - 1 - (succT nx ny)^[s] i := by
  constructor
  · rintro ⟨j, hj, h⟩
    by_cases e : j = s
    · subst e; exact Or.inr h
    · exact Or.inl ⟨j, by omega, h⟩
  · rintro (⟨j, hj, h⟩ | h)
    · exact ⟨j, by omega, h⟩
    · exact ⟨s, by omega, h⟩

theorem CycLen.fresh {i t : ℕ} (hi : i < ny * nx) (h : CycLen nx ny i t) {s : ℕ} (hs : s < t) :
    ¬ Dn nx ny i (s + 1) ((succT nx ny)^[s + 1] i) ∧ ¬ Dn nx ny i (s + 1) (ny * nx - 1 - (succT nx ny)^[s + 1] i) := by
  constructor
  · rintro ⟨j, hj, h'⟩
    obtain ⟨a, b⟩ := h.ne hi (s := s + 1) (by omega) hj
    rcases h' with h' | h'
    · exact a h'
    · exact b h'
  · rintro ⟨j, hj, h'⟩
    obtain ⟨a, b⟩ := h.ne hi (s := s + 1) (by omega) hj
    have l1 := iter_lt hi (s + 1)
    have l2 := iter_lt hi j
    rcases h' with h' | h'
    · exact b (by omega)
    · exact a (by omega)

end perm

/-! ### arrays of tuples -/

/-- the memory `st` differs from `st0` only in the array at `a`, whose tuples are `A` -/
structure View (a : Ptr) (N mn : ℕ) (st0 : State) (A : ℕ → ℕ → ℝ) (st : State) : Prop where
  next : st.next = st0.next
  tup : ∀ x < mn, ∀ v < N, st.mem (tupAt a N x + (v : ℤ)) = A x v
  other : ∀ q : Ptr, (∀ x < mn, ∀ v < N, q ≠ tupAt a N x + (v : ℤ)) → st.mem q = st0.mem q

theorem tupAt_inj {a : Ptr} {N x y v w : ℕ} (hv : v < N) (hw : w < N) (e : tupAt a N x + (v : ℤ) = tupAt a N y + (w : ℤ)) : x = y ∧ v = w := by
  unfold tupAt at e
  rw [ptr_nat, ptr_nat, ptr_nat_inj, Nat.mul_comm N, Nat.mul_comm N] at e
  exact radix hv hw e

theorem View.congr {a : Ptr} {N mn : ℕ} {st0 : State} {A A' : ℕ → ℕ → ℝ} {st : State} (h : View a N mn st0 A st)
    (e : ∀ x < mn, ∀ v < N, A' x v = A x v) : View a N mn st0 A' st :=
  ⟨h.next, fun x hx v hv => by rw [h.tup x hx v hv, e x hx v hv], h.other⟩

theorem View.copy {a : Ptr} {N mn : ℕ} {st0 : State} {A : ℕ → ℕ → ℝ} {st : State} (h : View a N mn st0 A st) {x y : ℕ} (hx : x < mn) (hy : y < mn) :
    View a N mn st0 (Function.update A x (A y)) (memcpy N (tupAt a N y) (tupAt a N x) st) := by
  refine ⟨by rw [memcpy_next, h.next], ?_, ?_⟩
  · intro z hz v hv
    by_cases e : z = x
    · subst e
      rw [memcpy_in hv, Function.update_self, h.tup y hy v hv]
    · rw [memcpy_out, Function.update_of_ne e, h.tup z hz v hv]
      intro w hw e'
      exact e (tupAt_inj hv hw e').1
  · intro q hq
    rw [memcpy_out (fun v hv => hq x hx v hv), h.other q hq]

theorem putTuple_eq (N : ℕ) (p : Ptr) (b : ℕ → ℝ) (st : State) : (putTuple N p b st).next = st.next ∧
    (∀ v < N, (putTuple N p b st).mem (p + (v : ℤ)) = b v) ∧ ∀ q : Ptr, (∀ v < N, q ≠ p + (v : ℤ)) → (putTuple N p b st).mem q = st.mem q := by
  unfold putTuple
  refine forN_inv (P := fun N s => s.next = st.next ∧ (∀ v < N, s.mem (p + (v : ℤ)) = b v) ∧ ∀ q : Ptr, (∀ v < N, q ≠ p + (v : ℤ)) → s.mem q = st.mem q) ?_ ?_
  · exact ⟨rfl, by simp, fun _ _ => rfl⟩
  · rintro j _ s ⟨h1, h2, h3⟩
    refine ⟨h1, ?_, ?_⟩
    · intro v hv
      by_cases e : v = j
      · subst e; rw [State.set_mem_same]
      · rw [State.set_mem_ne _ (by rw [Ne, ptr_nat_inj]; exact e)]; exact h2 v (by omega)
    · intro q hq
      rw [State.set_mem_ne _ (hq j (by omega))]
      exact h3 q fun v hv => hq v (by omega)

theorem View.put {a : Ptr} {N mn : ℕ} {st0 : State} {A : ℕ → ℕ → ℝ} {st : State} (h : View a N mn st0 A st) {x : ℕ} (hx : x < mn) (b β : ℕ → ℝ)
    (hb : ∀ v < N, b v = β v) : View a N mn st0 (Function.update A x β) (putTuple N (tupAt a N x) b st) := by
  obtain ⟨h1, h2, h3⟩ := putTuple_eq N (tupAt a N x) b st
  refine ⟨by rw [h1, h.next], ?_, ?_⟩
  · intro z hz v hv
    by_cases e : z = x
    · subst e
      rw [h2 v hv, Function.update_self, hb v hv]
    · rw [h3, Function.update_of_ne e, h.tup z hz v hv]
      intro w hw e'
      exact e (tupAt_inj hv hw e').1
  · intro q hq
    rw [h3 q (fun v hv => hq x hx v hv), h.other q hq]

/-! ### the loop along a cycle -/

open Classical in
/-- the array when the elements of `D` have been moved -/
noncomputable def moved (nx ny : ℕ) (D : ℕ → Prop) (A : ℕ → ℕ → ℝ) (x : ℕ) : ℕ → ℝ := if D x then A (succT nx ny x) else A x

theorem mark_eq (sz i : ℕ) (move : ℕ → Bool) (x : ℕ) : mark sz i move x = true ↔ move x = true ∨ (x < sz ∧ x = i) := by
  unfold mark
  split
  · by_cases e : x = i
    · subst e; simp; right; assumption
    · rw [Function.update_of_ne e]; simp [e]
  · constructor
    · exact Or.inl
    · rintro (h | ⟨h, rfl⟩)
      · exact h
      · contradiction

section cyc
variable {nx ny : ℕ} {a : Ptr} {N sz : ℕ}

theorem update2 {i s : ℕ} (hi : i < ny * nx) (A : ℕ → ℕ → ℝ) {v1 v2 : ℕ → ℝ} (h1 : v1 = A ((succT nx ny)^[s + 1] i))
    (h2 : v2 = A (ny * nx - 1 - (succT nx ny)^[s + 1] i)) (x : ℕ) :
    moved nx ny (Dn nx ny i (s + 1)) A x = Function.update (Function.update (moved nx ny (Dn nx ny i s) A) ((succT nx ny)^[s] i) v1) (ny * nx - 1 - (succT nx ny)^[s] i) v2 x := by
  by_cases e2 : x = ny * nx - 1 - (succT nx ny)^[s] i
  · rw [e2, Function.update_self, moved, if_pos (Dn.succ.2 (Or.inr (Or.inr rfl))), succT_comp (iter_lt hi s), h2, Function.iterate_succ_apply']
  · rw [Function.update_of_ne e2]
    by_cases e1 : x = (succT nx ny)^[s] i
    · rw [e1, Function.update_self, moved, if_pos (Dn.succ.2 (Or.inr (Or.inl rfl))), h1, Function.iterate_succ_apply']
    · rw [Function.update_of_ne e1, moved, moved]
      have : Dn nx ny i (s + 1) x ↔ Dn nx ny i s x := by rw [Dn.succ]; simp [e1, e2]
      by_cases h : Dn nx ny i s x
      · rw [if_pos (this.2 h), if_pos h]
      · rw [if_neg (fun h' => h (this.1 h')), if_neg h]

theorem cycle_run {i t : ℕ} (hi : i < ny * nx) (ht : CycLen nx ny i t) (st0 : State) (A : ℕ → ℕ → ℝ) (move : ℕ → Bool) (nc : ℕ) :
    ∀ d s, s + d = t → ∀ (mv : ℕ → Bool) (st : State), (∀ x, mv x = true ↔ move x = true ∨ (x < sz ∧ Dn nx ny i s x)) →
      View a N (ny * nx) st0 (moved nx ny (Dn nx ny i s) A) st →
      ∃ e, cycle a nx ny N sz i ((succT nx ny)^[s] i) (ny * nx - 1 - (succT nx ny)^[s] i) mv (nc + 2 * s) st = some e ∧
        e.i1 = (succT nx ny)^[t] i ∧ e.i1c = ny * nx - 1 - (succT nx ny)^[t] i ∧ e.ncount = nc + 2 * (t + 1) ∧
        (e.swapped = false → (succT nx ny)^[t + 1] i = i) ∧ (e.swapped = true → (succT nx ny)^[t + 1] i = ny * nx - 1 - i) ∧
        (∀ x, e.move x = true ↔ move x = true ∨ (x < sz ∧ Dn nx ny i (t + 1) x)) ∧
        View a N (ny * nx) st0 (moved nx ny (Dn nx ny i t) A) e.st := by
  intro d
  induction d with
  | zero =>
    intro s hs mv st hmv hV
    obtain rfl : s = t := by omega
    have hmv' : ∀ x, mark sz (ny * nx - 1 - (succT nx ny)^[s] i) (mark sz ((succT nx ny)^[s] i) mv) x = true ↔ move x = true ∨ (x < sz ∧ Dn nx ny i (s + 1) x) := by
      intro x
      rw [mark_eq, mark_eq, hmv, Dn.succ]; tauto
    rw [cycle]
    simp only [← Function.iterate_succ_apply' (succT nx ny) s i]
    by_cases h1 : (succT nx ny)^[s + 1] i = i
    · rw [if_pos h1]
      exact ⟨_, rfl, rfl, rfl, by ring, fun _ => h1, by simp, hmv', hV⟩
    · have h2 := ht.last.resolve_left h1
      rw [if_neg h1, if_pos h2]
      exact ⟨_, rfl, rfl, rfl, by ring, by simp, fun _ => h2, hmv', hV⟩
  | succ d ih =>
    intro s hs mv st hmv hV
    have hmv' : ∀ x, mark sz (ny * nx - 1 - (succT nx ny)^[s] i) (mark sz ((succT nx ny)^[s] i) mv) x = true ↔ move x = true ∨ (x < sz ∧ Dn nx ny i (s + 1) x) := by
      intro x
      rw [mark_eq, mark_eq, hmv, Dn.succ]; tauto
    obtain ⟨b1, b2⟩ := ht.before (s + 1) (by omega) (by omega)
    obtain ⟨f1, f2⟩ := ht.fresh hi (show s < t by omega)
    rw [cycle]
    simp only [← Function.iterate_succ_apply' (succT nx ny) s i]
    rw [if_neg b1, if_neg b2, show nc + 2 * s + 2 = nc + 2 * (s + 1) by ring]
    refine ih (s + 1) (by omega) _ _ hmv' ?_
    have l0 := iter_lt hi s
    have l1 := iter_lt hi (s + 1)
    have v1 := hV.copy l0 l1
    have v2 := v1.copy (x := ny * nx - 1 - (succT nx ny)^[s] i) (y := ny * nx - 1 - (succT nx ny)^[s + 1] i) (by omega) (by omega)
    refine v2.congr fun x hx v hv => congrFun (update2 hi A ?_ ?_ x) v
    · rw [moved, if_neg (fun h => f1 (Dn.succ.2 (Or.inl h)))]
    · rw [Function.update_of_ne, moved, if_neg (fun h => f2 (Dn.succ.2 (Or.inl h)))]
      intro e
      exact f2 (Dn.succ.2 (Or.inr (Or.inl e)))

end cyc

end FFTW.RdftS
