import Verif.Proofs.Real1

/-!
# Programs that fill an array, one element after the other
-/

namespace FFTW
open Tensor Spec Finset FFTW.Api

/-- memory was `m0`; since then only `D[k*s]`, `k < n`, have changed, and those with `S k` have their final value `A k` -/
structure Fill (m0 : Ptr → ℝ) (nx : ℕ) (D : Ptr) (s : ℤ) (n : ℕ) (A : ℕ → ℝ) (S : ℕ → Prop) (st : State) : Prop where
  next : st.next = nx
  out : ∀ q, (∀ k < n, q ≠ D + (k : ℤ) * s) → st.mem q = m0 q
  val : ∀ k < n, S k → st.mem (D + (k : ℤ) * s) = A k

namespace Fill
variable {m0 : Ptr → ℝ} {nx : ℕ} {D : Ptr} {s : ℤ} {n : ℕ} {A : ℕ → ℝ} {S : ℕ → Prop} {st : State}

theorem start (st : State) (D : Ptr) (s : ℤ) (n : ℕ) (A : ℕ → ℝ) : Fill st.mem st.next D s n A (fun _ => False) st :=
  ⟨rfl, fun _ _ => rfl, fun _ _ h => h.elim⟩

theorem get (h : Fill m0 nx D s n A S st) {q : Ptr} (hq : q.blk ≠ D.blk) : st.mem q = m0 q :=
  h.out q fun _ _ e => hq (by rw [e]; rfl)

theorem get' (h : Fill m0 nx D s n A S st) {q : Ptr} (hq : q.blk ≠ D.blk) (o : ℤ) : st.mem (q + o) = m0 (q + o) :=
  h.get (q := q + o) hq

theorem mono (h : Fill m0 nx D s n A S st) {S' : ℕ → Prop} (hS : ∀ k < n, S' k → S k) : Fill m0 nx D s n A S' st :=
  ⟨h.next, h.out, fun k hk hs => h.val k hk (hS k hk hs)⟩

theorem set (h : Fill m0 nx D s n A S st) (hs : RInj s n) {k : ℕ} (hk : k < n) {p : Ptr} (hp : p = D + (k : ℤ) * s) {v : ℝ} (hv : v = A k) :
    Fill m0 nx D s n A (fun j => S j ∨ j = k) (st.set p v) := by
  subst hp hv
  refine ⟨h.next, fun q hq => ?_, fun j hj hS => ?_⟩
  · rw [State.set_mem_ne _ (hq k hk), h.out q hq]
  · by_cases e : j = k
    · subst e; rw [State.set_mem_same]
    · rw [State.set_mem_ne _ (fun e' => e (hs j k hj hk ((ptr_add_right_inj D).1 e'))), h.val j hj (hS.resolve_right e)]

theorem loop {S : ℕ → ℕ → Prop} {N : ℕ} {f : ℕ → State → State} (h : Fill m0 nx D s n A (S 0) st)
    (step : ∀ i < N, ∀ st, Fill m0 nx D s n A (S i) st → Fill m0 nx D s n A (S (i + 1)) (f i st)) : Fill m0 nx D s n A (S N) (forN N f st) :=
  forN_inv (P := fun i st => Fill m0 nx D s n A (S i) st) h step

end Fill

namespace Spec

/-- a program working in place on a buffer of `N` numbers, turning `u` into `Y u` -/
def InBuf (N : ℕ) (c : Ptr → Ptr → State → State) (Y : (ℕ → ℝ) → ℕ → ℝ) : Prop :=
  ∀ (B : Ptr) (st : State), B.blk < st.next →
    st.next ≤ (c B B st).next ∧ (∀ q, q.blk < st.next → (∀ k < N, q ≠ B + (k : ℤ)) → (c B B st).mem q = st.mem q) ∧
    ∀ u : ℕ → ℝ, (∀ j < N, u j = st.mem (B + (j : ℤ))) → ∀ k < N, (c B B st).mem (B + (k : ℤ)) = Y u k

theorem R1.inBuf {kd : RKind} {N : ℕ} {nd : Bool} {c : Ptr → Ptr → State → State} (h : R1 kd N 1 1 true nd c) :
    InBuf N c (fun u k => ∑ j ∈ range N, rK kd N j k * u j) := by
  intro B st hB
  obtain ⟨c1, c2, c3⟩ := h.buf hB
  refine ⟨c1, c2, fun u hu k hk => ?_⟩
  rw [c3 k hk]
  exact sum_congr rfl fun j hj => by rw [hu j (mem_range.1 hj)]

/-- a program computing one real transform whatever the overlap of its input and its output -/
def R1x (kd : RKind) (n : ℕ) (is os : ℤ) (g : Ptr → Ptr → State → State) : Prop :=
  RInj os n → ∀ (I O : Ptr) (st : State), I.blk < st.next → O.blk < st.next →
    st.next ≤ (g I O st).next ∧
    (∀ q, q.blk < st.next → (∀ k < n, q ≠ O + (k : ℤ) * os) → (g I O st).mem q = st.mem q) ∧
    ∀ k < n, (g I O st).mem (O + (k : ℤ) * os) = ∑ j ∈ range n, rK kd n j k * st.mem (I + (j : ℤ) * is)

theorem R1x.toR1 {kd : RKind} {n : ℕ} {is os : ℤ} {g : Ptr → Ptr → State → State} (h : R1x kd n is os g) (inpl nd : Bool) : R1 kd n is os inpl nd g := by
  intro ho _ I O st bI bO _ _
  obtain ⟨h1, h2, h3⟩ := h ho I O st bI bO
  exact ⟨h1, fun q hq hk _ => h2 q hq hk, h3⟩

/-- preprocessing into a buffer, a child plan on the buffer, postprocessing -/
theorem R1_prepostX {K : RKind} {n N : ℕ} {is os : ℤ} {pre post c : Ptr → Ptr → State → State} {A Z Y : (ℕ → ℝ) → ℕ → ℝ}
    (hpre : ∀ (I B : Ptr) (st : State), I.blk ≠ B.blk →
      Fill st.mem st.next B 1 N (A fun j => st.mem (I + (j : ℤ) * is)) (fun _ => True) (pre I B st))
    (hcld : InBuf N c Y)
    (hpost : RInj os n → ∀ (B O : Ptr) (st : State), B.blk < st.next → O.blk < st.next → B.blk ≠ O.blk →
      st.next ≤ (post B O st).next ∧ (∀ q, q.blk < st.next → q.blk ≠ B.blk → (∀ k < n, q ≠ O + (k : ℤ) * os) → (post B O st).mem q = st.mem q) ∧
      ∀ k < n, (post B O st).mem (O + (k : ℤ) * os) = Z (fun m => st.mem (B + (m : ℤ))) k)
    (math : ∀ x y : ℕ → ℝ, (∀ m < N, y m = Y (A x) m) → ∀ k < n, Z y k = ∑ j ∈ range n, rK K n j k * x j) :
    R1x K n is os (fun I O => withBuf fun B st => post B O (c B B (pre I B st))) := by
  intro ho I O st bI bO
  set B := st.fresh with hB
  have hBb : B.blk = st.next := rfl
  have f1 := hpre I B st.malloc (by omega)
  set st1 := pre I B st.malloc with hst1
  have n1 : st1.next = st.next + 1 := f1.next
  obtain ⟨c1, c2, c3⟩ := hcld B st1 (by omega)
  set st2 := c B B st1 with hst2
  obtain ⟨p1, p2, p3⟩ := hpost ho B O st2 (by omega) (by omega) (by omega)
  refine ⟨le_of_eq (withBuf_next _ _).symm, ?_, ?_⟩
  · intro q hq hk
    rw [withBuf_mem]
    show (post B O st2).mem q = _
    rw [p2 q (by omega) (by omega) hk, c2 q (by omega) ?_, f1.get (by omega)]
    · rfl
    · intro k _ e
      have h2 := congrArg Ptr.blk e
      have : q.blk = B.blk := h2
      omega
  · intro k hk
    rw [withBuf_mem]
    show (post B O st2).mem _ = _
    rw [p3 k hk]
    refine math (fun j => st.mem (I + (j : ℤ) * is)) _ (fun m hm => c3 _ (fun j hj => ?_) m hm) k hk
    have := f1.val j hj trivial
    rw [mul_one] at this
    rw [this]
    rfl

theorem R1_prepostG {K : RKind} {n N : ℕ} {is os : ℤ} {inpl nd : Bool} {pre post c : Ptr → Ptr → State → State} {A Z Y : (ℕ → ℝ) → ℕ → ℝ}
    (hpre : ∀ (I B : Ptr) (st : State), I.blk ≠ B.blk →
      Fill st.mem st.next B 1 N (A fun j => st.mem (I + (j : ℤ) * is)) (fun _ => True) (pre I B st))
    (hcld : InBuf N c Y)
    (hpost : RInj os n → ∀ (B O : Ptr) (st : State), B.blk < st.next → O.blk < st.next → B.blk ≠ O.blk →
      st.next ≤ (post B O st).next ∧ (∀ q, q.blk < st.next → q.blk ≠ B.blk → (∀ k < n, q ≠ O + (k : ℤ) * os) → (post B O st).mem q = st.mem q) ∧
      ∀ k < n, (post B O st).mem (O + (k : ℤ) * os) = Z (fun m => st.mem (B + (m : ℤ))) k)
    (math : ∀ x y : ℕ → ℝ, (∀ m < N, y m = Y (A x) m) → ∀ k < n, Z y k = ∑ j ∈ range n, rK K n j k * x j) :
    R1 K n is os inpl nd (fun I O => withBuf fun B st => post B O (c B B (pre I B st))) :=
  (R1_prepostX hpre hcld hpost math).toR1 inpl nd

theorem R1_prepost {K kd : RKind} {n N : ℕ} {is os : ℤ} {inpl nd nd' : Bool} {pre post c : Ptr → Ptr → State → State} {A Z : (ℕ → ℝ) → ℕ → ℝ}
    (hpre : ∀ (I B : Ptr) (st : State), I.blk ≠ B.blk →
      Fill st.mem st.next B 1 N (A fun j => st.mem (I + (j : ℤ) * is)) (fun _ => True) (pre I B st))
    (hcld : R1 kd N 1 1 true nd' c)
    (hpost : RInj os n → ∀ (B O : Ptr) (st : State), B.blk < st.next → O.blk < st.next → B.blk ≠ O.blk →
      st.next ≤ (post B O st).next ∧ (∀ q, q.blk < st.next → q.blk ≠ B.blk → (∀ k < n, q ≠ O + (k : ℤ) * os) → (post B O st).mem q = st.mem q) ∧
      ∀ k < n, (post B O st).mem (O + (k : ℤ) * os) = Z (fun m => st.mem (B + (m : ℤ))) k)
    (math : ∀ x y : ℕ → ℝ, (∀ m < N, y m = ∑ j ∈ range N, rK kd N j m * A x j) → ∀ k < n, Z y k = ∑ j ∈ range n, rK K n j k * x j) :
    R1 K n is os inpl nd (fun I O => withBuf fun B st => post B O (c B B (pre I B st))) :=
  R1_prepostG hpre hcld.inBuf hpost math

/-- a child plan for `l` transforms side by side in a buffer -/
theorem _root_.FFTW.Spec.GOK.inBufV {m l : ℕ} (hm : 0 < m) {kd : RKind} {nd : Bool} {g : Ptr → Ptr → State → State}
    (h : GOK rK [(⟨m, 1, 1⟩, kd)] (some [⟨l, (m : ℤ), (m : ℤ)⟩]) 0 0 true nd g) :
    InBuf (l * m) g (fun u k => ∑ j ∈ range m, rK kd m j (k % m) * u (k / m * m + j)) := by
  intro B st hB
  have eo : outs (locT ℝ 0 0 [((⟨m, 1, 1⟩ : Dim), kd)] (some [⟨l, (m : ℤ), (m : ℤ)⟩])) = offs [(m, 1), (l, (m : ℤ))] := by rw [RdftS.outs_locT_real]; rfl
  have ei : ins (locT ℝ 0 0 [((⟨m, 1, 1⟩ : Dim), kd)] (some [⟨l, (m : ℤ), (m : ℤ)⟩])) = offs [(m, 1), (l, (m : ℤ))] := by rw [RdftS.ins_locT_real]; rfl
  have hmem : ∀ x, x ∈ offs [(m, (1 : ℤ)), (l, (m : ℤ))] → ∃ k < l * m, x = ((k : ℕ) : ℤ) := by
    intro x hx
    simp only [mem_offs_cons, mem_offs_nil] at hx
    obtain ⟨i, hi, y, ⟨j, hj, z, rfl, rfl⟩, rfl⟩ := hx
    refine ⟨i + j * m, by nlinarith, ?_⟩
    push_cast; ring
  have hnd : (offs [(m, (1 : ℤ)), (l, (m : ℤ))]).Nodup := by
    rw [offs_boxes]
    refine (nodup_boxes _).map_on ?_
    intro x hx y hy he
    simp only [List.map_cons, List.map_nil, mem_boxes] at hx hy he
    obtain ⟨k, x2, hk, hx2, rfl⟩ := box_cons.1 hx
    obtain ⟨v, x, hv, hx3, rfl⟩ := box_cons.1 hx2
    obtain ⟨k', y2, hk', hy2, rfl⟩ := box_cons.1 hy
    obtain ⟨v', y, hv', hy3, rfl⟩ := box_cons.1 hy2
    obtain rfl : x = [] := List.length_eq_zero_iff.1 (by rw [box_length hx3]; rfl)
    obtain rfl : y = [] := List.length_eq_zero_iff.1 (by rw [box_length hy3]; rfl)
    simp only [dot_cons, dot_nil] at he
    have h2 : (m : ℤ) * v + k = m * v' + k' := by linarith
    have h3 : m * v + k = m * v' + k' := by exact_mod_cast h2
    have hv : v = v' := by
      have e1 : (m * v + k) / m = v := by rw [Nat.mul_add_div (by omega), Nat.div_eq_of_lt (by omega), add_zero]
      have e2 : (m * v' + k') / m = v' := by rw [Nat.mul_add_div (by omega), Nat.div_eq_of_lt (by omega), add_zero]
      rw [← e1, ← e2, h3]
    subst hv
    have : k = k' := by omega
    subst this
    rfl
  obtain ⟨h1, h2⟩ := h ⟨by rw [eo]; exact hnd, fun _ => by rw [ei]; exact hnd, fun _ => by rw [ei, eo], fun _ => rfl⟩ B B st
    ⟨hB, hB, fun _ => rfl, by simp⟩
  refine ⟨h1.next, fun q hq hk => h1.mem q hq ?_, ?_⟩
  · rintro (⟨x, hx, e⟩ | ⟨hn, x, hx, e⟩)
    · rw [eo] at hx
      obtain ⟨k, hk', rfl⟩ := hmem x hx
      exact hk k hk' e
    · rw [ei] at hx
      obtain ⟨k, hk', rfl⟩ := hmem x hx
      exact hk k hk' e
  · intro u hu k hk
    have hdiv : k / m < l := Nat.div_lt_of_lt_mul (by rwa [mul_comm])
    have hmod := Nat.mod_lt k hm
    have hv : (((k / m : ℕ) : ℤ) * m, ((k / m : ℕ) : ℤ) * m) ∈ pairs (some [(⟨l, (m : ℤ), (m : ℤ)⟩ : Dim)]) := by
      rw [mem_pairs_cons]
      exact ⟨k / m, hdiv, 0, by simp [pairs, offs], by simp⟩
    have := h2 [((⟨m, 1, 1⟩, kd), k % m)] ⟨rfl, by simpa using hmod⟩ _ hv
    rw [gOut_cons, gOut_nil] at this
    simp only [gSum, add_zero, Prod.fst_zero, Prod.snd_zero, val_r] at this
    have hdm := Nat.div_add_mod k m
    have e : ((k % m : ℕ) : ℤ) * 1 + ((k / m : ℕ) : ℤ) * m = (k : ℤ) := by
      rw [mul_one, mul_comm, add_comm]; exact_mod_cast hdm
    rw [e] at this
    rw [this]
    refine sum_congr rfl fun j hj => ?_
    have hj := mem_range.1 hj
    rw [hu _ (by nlinarith)]
    congr 3
    push_cast
    ring

/-- postprocessing by a fill -/
theorem post_fill {n : ℕ} {os : ℤ} {post : Ptr → Ptr → State → State} {Z : (ℕ → ℝ) → ℕ → ℝ}
    (h : RInj os n → ∀ (B O : Ptr) (st : State), B.blk ≠ O.blk → Fill st.mem st.next O os n (Z fun m => st.mem (B + (m : ℤ))) (fun _ => True) (post B O st)) :
    RInj os n → ∀ (B O : Ptr) (st : State), B.blk < st.next → O.blk < st.next → B.blk ≠ O.blk →
      st.next ≤ (post B O st).next ∧ (∀ q, q.blk < st.next → q.blk ≠ B.blk → (∀ k < n, q ≠ O + (k : ℤ) * os) → (post B O st).mem q = st.mem q) ∧
      ∀ k < n, (post B O st).mem (O + (k : ℤ) * os) = Z (fun m => st.mem (B + (m : ℤ))) k := by
  intro ho B O st _ _ hne
  have f := h ho B O st hne
  exact ⟨le_of_eq f.next.symm, fun q _ _ hk => f.out q hk, fun k hk => f.val k hk trivial⟩

end Spec
end FFTW
