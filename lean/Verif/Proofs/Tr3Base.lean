import Verif.Model.Transpose3
import Verif.Proofs.RdftSolvers
import Verif.Proofs.Buffered

/-!
# Moving data within an array: common lemmas for rdft/vrank3-transpose.c
-/

namespace FFTW.RdftS
open Tensor Spec DftS

/-! ### indices -/

theorem radix {a b s w w' : ℕ} (hw : w < s) (hw' : w' < s) (e : a * s + w = b * s + w') : a = b ∧ w = w' := by
  have h1 : (a * s + w) / s = a := by rw [Nat.add_comm, Nat.add_mul_div_right _ _ (by omega), Nat.div_eq_of_lt hw]; omega
  have h2 : (b * s + w') / s = b := by rw [Nat.add_comm, Nat.add_mul_div_right _ _ (by omega), Nat.div_eq_of_lt hw']; omega
  have : a = b := by rw [← h1, ← h2, e]
  subst this
  exact ⟨rfl, by omega⟩

theorem radix_div {a s w : ℕ} (hw : w < s) : (a * s + w) / s = a := by
  rw [Nat.add_comm, Nat.add_mul_div_right _ _ (by omega), Nat.div_eq_of_lt hw]; omega

theorem radix_mod {a s w : ℕ} (hw : w < s) : (a * s + w) % s = w := by
  rw [Nat.add_comm, Nat.add_mul_mod_self_right, Nat.mod_eq_of_lt hw]

theorem lt_radix {a n s w : ℕ} (ha : a < n) (hw : w < s) : a * s + w < n * s := by
  have : (a + 1) * s ≤ n * s := Nat.mul_le_mul_right _ ha
  rw [Nat.add_mul] at this
  omega

/-- distinct indices are at distinct places -/
def G3 (n1 s1 n2 s2 n3 : ℕ) : Prop := ∀ x y v x' y' v' : ℕ, x < n1 → y < n2 → v < n3 → x' < n1 → y' < n2 → v' < n3 →
  x * s1 + y * s2 + v = x' * s1 + y' * s2 + v' → x = x' ∧ y = y' ∧ v = v'

theorem G3.of_le {n1 s1 n2 s2 n3 : ℕ} (h1 : n3 ≤ s2) (h2 : n2 * s2 ≤ s1) : G3 n1 s1 n2 s2 n3 := by
  intro x y v x' y' v' _ hy hv _ hy' hv' e
  have a1 : y * s2 + v < s1 := lt_of_lt_of_le (lt_radix hy (by omega)) h2
  have a2 : y' * s2 + v' < s1 := lt_of_lt_of_le (lt_radix hy' (by omega)) h2
  obtain ⟨r1, r2⟩ := radix (a := x) (b := x') a1 a2 (by omega)
  obtain ⟨r3, r4⟩ := radix (show v < s2 by omega) (show v' < s2 by omega) r2
  exact ⟨r1, r3, r4⟩

theorem G3.of_ge {n1 s1 n2 s2 n3 : ℕ} (h1 : n3 ≤ s1) (h2 : n1 * s1 ≤ s2) : G3 n1 s1 n2 s2 n3 := by
  intro x y v x' y' v' hx hy hv hx' hy' hv' e
  obtain ⟨a, b, c⟩ := G3.of_le h1 h2 (n1 := n2) y x v y' x' v' hy hx hv hy' hx' hv' (by omega)
  exact ⟨b, a, c⟩

theorem G3.nodup {n1 s1 n2 s2 n3 : ℕ} (h : G3 n1 s1 n2 s2 n3) : (offs [(n1, (s1 : ℤ)), (n2, (s2 : ℤ)), (n3, 1)]).Nodup := by
  rw [Api.offs_boxes]
  refine (Api.nodup_boxes _).map_on ?_
  intro a ha b hb e
  rw [Api.mem_boxes] at ha hb
  obtain ⟨x, a1, hx, h1, rfl⟩ := Api.box_cons.1 ha
  obtain ⟨y, a2, hy, h2, rfl⟩ := Api.box_cons.1 h1
  obtain ⟨v, a3, hv, h3, rfl⟩ := Api.box_cons.1 h2
  obtain rfl := Api.box_nil.1 h3
  obtain ⟨x', b1, hx', g1, rfl⟩ := Api.box_cons.1 hb
  obtain ⟨y', b2, hy', g2, rfl⟩ := Api.box_cons.1 g1
  obtain ⟨v', b3, hv', g3, rfl⟩ := Api.box_cons.1 g2
  obtain rfl := Api.box_nil.1 g3
  simp [dot] at e
  obtain ⟨rfl, rfl, rfl⟩ := h x y v x' y' v' hx hy hv hx' hy' hv' (by zify; linarith)
  rfl

/-! ### pointers -/

theorem ptr_nat (p : Ptr) (a b : ℕ) : p + (a : ℤ) + (b : ℤ) = p + ((a + b : ℕ) : ℤ) := by
  rw [Ptr.add_add]; push_cast; rfl

theorem ptr_nat_inj {p : Ptr} {a b : ℕ} : p + (a : ℤ) = p + (b : ℤ) ↔ a = b := by
  rw [ptr_add_right_inj]; exact Int.ofNat_inj

theorem ptr_blk (p : Ptr) (a : ℤ) : (p + a).blk = p.blk := rfl

theorem ptr_ne_blk {p q : Ptr} {a b : ℤ} (h : p.blk ≠ q.blk) : p + a ≠ q + b := fun e => by
  have h2 := congrArg Ptr.blk e
  exact h h2

/-! ### memcpy -/

theorem memcpy_next (n : ℕ) (I O : Ptr) (st : State) : (memcpy n I O st).next = st.next := by
  unfold memcpy
  exact forN_inv (P := fun _ s => s.next = st.next) rfl (fun i s _ h => h)

theorem memcpy_aux (n : ℕ) (I O : Ptr) (st : State) :
    (∀ i < n, (memcpy n I O st).mem (O + (i : ℤ)) = st.mem (I + (i : ℤ))) ∧ ∀ q : Ptr, (∀ i < n, q ≠ O + (i : ℤ)) → (memcpy n I O st).mem q = st.mem q := by
  unfold memcpy
  refine forN_inv (P := fun n s => (∀ i < n, s.mem (O + (i : ℤ)) = st.mem (I + (i : ℤ))) ∧ ∀ q : Ptr, (∀ i < n, q ≠ O + (i : ℤ)) → s.mem q = st.mem q) ?_ ?_
  · exact ⟨by simp, fun _ _ => rfl⟩
  · rintro j _ s ⟨h1, h2⟩
    constructor
    · intro i hi
      by_cases e : i = j
      · subst e; rw [State.set_mem_same]
      · rw [State.set_mem_ne _ (by rw [Ne, ptr_nat_inj]; exact e)]; exact h1 i (by omega)
    · intro q hq
      rw [State.set_mem_ne _ (hq j (by omega))]
      exact h2 q fun i hi => hq i (by omega)

theorem memcpy_in {n : ℕ} {I O : Ptr} {st : State} {i : ℕ} (hi : i < n) : (memcpy n I O st).mem (O + (i : ℤ)) = st.mem (I + (i : ℤ)) := (memcpy_aux n I O st).1 i hi
theorem memcpy_out {n : ℕ} {I O : Ptr} {st : State} {q : Ptr} (hq : ∀ i < n, q ≠ O + (i : ℤ)) : (memcpy n I O st).mem q = st.mem q := (memcpy_aux n I O st).2 q hq

/-! ### child plans -/

/-- what a plan for a rank-0 problem of vector rank three does -/
theorem child3 {n1 n2 n3 s1 s2 t1 t2 : ℕ} {inpl nd : Bool} {f : Ptr → Ptr → State → State}
    (hG : GOK rK [] (some [⟨n1, s1, t1⟩, ⟨n2, s2, t2⟩, ⟨n3, 1, 1⟩]) 0 0 inpl nd f)
    (hi : G3 n1 s1 n2 s2 n3) (ho : G3 n1 t1 n2 t2 n3)
    (heq : inpl = true → ins (locT ℝ 0 0 ([] : List (Dim × RKind)) (some [⟨n1, s1, t1⟩, ⟨n2, s2, t2⟩, ⟨n3, 1, 1⟩])) =
      outs (locT ℝ 0 0 ([] : List (Dim × RKind)) (some [⟨n1, s1, t1⟩, ⟨n2, s2, t2⟩, ⟨n3, 1, 1⟩])))
    {I O : Ptr} {st : State} (hI : I.blk < st.next) (hO : O.blk < st.next) (hs : inpl = true → I = O) (hd : inpl = false → I.blk ≠ O.blk) :
    st.next ≤ (f I O st).next ∧
    (∀ x < n1, ∀ y < n2, ∀ v < n3, (f I O st).mem (O + ((x * t1 + y * t2 + v : ℕ) : ℤ)) = st.mem (I + ((x * s1 + y * s2 + v : ℕ) : ℤ))) ∧
    ∀ q : Ptr, q.blk < st.next → (∀ x < n1, ∀ y < n2, ∀ v < n3, q ≠ O + ((x * t1 + y * t2 + v : ℕ) : ℤ)) →
      (∀ x < n1, ∀ y < n2, ∀ v < n3, q ≠ I + ((x * s1 + y * s2 + v : ℕ) : ℤ)) → (f I O st).mem q = st.mem q := by
  set l : List Dim := [⟨n1, s1, t1⟩, ⟨n2, s2, t2⟩, ⟨n3, 1, 1⟩] with hl
  have hins : ins (locT ℝ 0 0 ([] : List (Dim × RKind)) (some l)) = offs [(n1, (s1 : ℤ)), (n2, (s2 : ℤ)), (n3, 1)] := by
    rw [ins_locT_real]; rfl
  have houts : outs (locT ℝ 0 0 ([] : List (Dim × RKind)) (some l)) = offs [(n1, (t1 : ℤ)), (n2, (t2 : ℤ)), (n3, 1)] := by
    rw [outs_locT_real]; rfl
  obtain ⟨hF, hv⟩ := hG ⟨by rw [houts]; exact ho.nodup, fun _ => by rw [hins]; exact hi.nodup, heq, fun _ => rfl⟩ I O st
    ⟨hI, hO, hs, fun h a _ b _ => ptr_ne_blk (hd h)⟩
  refine ⟨hF.next, ?_, ?_⟩
  · intro x hx y hy v hv'
    have hp : ((x : ℤ) * s1 + ((y : ℤ) * s2 + ((v : ℤ) * 1 + 0)), (x : ℤ) * t1 + ((y : ℤ) * t2 + ((v : ℤ) * 1 + 0))) ∈ pairs (some l) := by
      rw [hl, pairs_cons, Multiset.mem_bind]
      refine ⟨x, Multiset.mem_range.2 hx, Multiset.mem_map.2 ⟨((y : ℤ) * s2 + ((v : ℤ) * 1 + 0), (y : ℤ) * t2 + ((v : ℤ) * 1 + 0)), ?_, rfl⟩⟩
      rw [pairs_cons, Multiset.mem_bind]
      refine ⟨y, Multiset.mem_range.2 hy, Multiset.mem_map.2 ⟨((v : ℤ) * 1 + 0, (v : ℤ) * 1 + 0), ?_, rfl⟩⟩
      rw [pairs_cons, Multiset.mem_bind]
      refine ⟨v, Multiset.mem_range.2 hv', Multiset.mem_map.2 ⟨(0, 0), ?_, rfl⟩⟩
      simp [pairs, offs]
    have := hv [] ⟨rfl, by simp⟩ _ hp
    simp only [gOut, gSum, val, Elt.dec] at this
    have e1 : O + ((x * t1 + y * t2 + v : ℕ) : ℤ) = O + (((0 : ℕ) : ℤ) * (0 : ℤ) + (0 + ((x : ℤ) * (t1 : ℤ) + ((y : ℤ) * (t2 : ℤ) + ((v : ℤ) * 1 + 0))))) := by
      rw [ptr_add_right_inj]; push_cast; ring
    have e2 : I + ((x * s1 + y * s2 + v : ℕ) : ℤ) = I + (((0 : ℕ) : ℤ) * (0 : ℤ) + (0 + ((x : ℤ) * (s1 : ℤ) + ((y : ℤ) * (s2 : ℤ) + ((v : ℤ) * 1 + 0))))) := by
      rw [ptr_add_right_inj]; push_cast; ring
    rw [e1, e2]
    simpa using this
  · intro q hq h1 h2
    refine hF.mem q hq ?_
    rintro (⟨b, hb, rfl⟩ | ⟨_, a, ha, rfl⟩)
    · rw [houts, mem_offs3] at hb
      obtain ⟨x, y, v, hx, hy, hv', rfl⟩ := hb
      exact h1 x hx y hy v hv' (by rw [ptr_add_right_inj]; push_cast; ring)
    · rw [hins, mem_offs3] at ha
      obtain ⟨x, y, v, hx, hy, hv', rfl⟩ := ha
      exact h2 x hx y hy v hv' (by rw [ptr_add_right_inj]; push_cast; ring)

/-! ### rearranging a segment in place -/

/-- `f` rearranges the `L` elements at its argument according to `g`, and changes nothing else -/
def Seg (L : ℕ) (g : ℕ → ℕ) (f : Ptr → State → State) : Prop := ∀ p st, p.blk < st.next →
  st.next ≤ (f p st).next ∧ (∀ w < L, (f p st).mem (p + (w : ℤ)) = st.mem (p + ((g w : ℕ) : ℤ))) ∧
  ∀ q : Ptr, q.blk < st.next → (∀ w < L, q ≠ p + (w : ℤ)) → (f p st).mem q = st.mem q

/-- the same, but the block `B` (a buffer) may change -/
def SegB (B L : ℕ) (g : ℕ → ℕ) (f : Ptr → State → State) : Prop := ∀ p st, p.blk < st.next → B < st.next → p.blk ≠ B →
  st.next ≤ (f p st).next ∧ (∀ w < L, (f p st).mem (p + (w : ℤ)) = st.mem (p + ((g w : ℕ) : ℤ))) ∧
  ∀ q : Ptr, q.blk < st.next → q.blk ≠ B → (∀ w < L, q ≠ p + (w : ℤ)) → (f p st).mem q = st.mem q

theorem Seg.toB {B L : ℕ} {g : ℕ → ℕ} {f : Ptr → State → State} (h : Seg L g f) : SegB B L g f := fun p st hp _ _ =>
  ⟨(h p st hp).1, (h p st hp).2.1, fun q hq _ hn => (h p st hp).2.2 q hq hn⟩

theorem SegB.withBuf {L : ℕ} {g : ℕ → ℕ} {f : Ptr → Ptr → State → State} (h : ∀ buf, SegB buf.blk L g (f buf)) :
    Seg L g (fun p => withBuf fun buf => f buf p) := by
  intro p st hp
  have hf : st.fresh.blk = st.next := rfl
  have hn : st.malloc.next = st.next + 1 := rfl
  obtain ⟨h1, h2, h3⟩ := h st.fresh p st.malloc (by rw [hn]; omega) (by rw [hn, hf]; omega) (by rw [hf]; omega)
  refine ⟨le_refl _, h2, fun q hq hn' => ?_⟩
  exact h3 q (by rw [hn]; omega) (by rw [hf]; omega) hn'

/-- in-place transposition of an `n × m` matrix of `c`-tuples: the element now at `w` comes from `trn n m c w` -/
def trn (n m c w : ℕ) : ℕ := (w / c % n * m + w / c / n) * c + w % c

theorem trn_mk {n m c i j v : ℕ} (hi : i < n) (hv : v < c) : trn n m c ((j * n + i) * c + v) = (i * m + j) * c + v := by
  unfold trn
  have h1 : ((j * n + i) * c + v) / c = j * n + i := by
    rw [Nat.add_comm, Nat.add_mul_div_right _ _ (by omega), Nat.div_eq_of_lt hv]; omega
  have h2 : ((j * n + i) * c + v) % c = v := by
    rw [Nat.add_comm, Nat.add_mul_mod_self_right, Nat.mod_eq_of_lt hv]
  have h3 : (j * n + i) % n = i := by rw [Nat.add_comm, Nat.add_mul_mod_self_right, Nat.mod_eq_of_lt hi]
  have h4 : (j * n + i) / n = j := by rw [Nat.add_comm, Nat.add_mul_div_right _ _ (by omega), Nat.div_eq_of_lt hi]; omega
  rw [h1, h2, h3, h4]

theorem radix_split {n c w : ℕ} (h : w < n * c) : ∃ a v, a < n ∧ v < c ∧ w = a * c + v := by
  have hc : 0 < c := by rcases Nat.eq_zero_or_pos c with rfl | h'; · simp at h
                        · exact h'
  refine ⟨w / c, w % c, ?_, Nat.mod_lt _ hc, ?_⟩
  · rw [Nat.div_lt_iff_lt_mul hc]; exact h
  · rw [Nat.mul_comm]; exact (Nat.div_add_mod _ _).symm

theorem tr_ind {n m c w : ℕ} (h : w < m * n * c) : ∃ i j v, i < n ∧ j < m ∧ v < c ∧ w = (j * n + i) * c + v := by
  obtain ⟨a, v, ha, hv, rfl⟩ := radix_split h
  obtain ⟨j, i, hj, hi, rfl⟩ := radix_split ha
  exact ⟨i, j, v, hi, hj, hv, rfl⟩

theorem SegB.congr {B L : ℕ} {g g' : ℕ → ℕ} {f : Ptr → State → State} (h : SegB B L g f) (e : ∀ w < L, g' w = g w) : SegB B L g' f := by
  intro p st hp hB hpB
  obtain ⟨h1, h2, h3⟩ := h p st hp hB hpB
  exact ⟨h1, fun w hw => by rw [h2 w hw, e w hw], h3⟩

theorem SegB.id (B L : ℕ) : SegB B L (fun w => w) (fun _ st => st) := fun _ _ _ _ _ => ⟨le_refl _, fun _ _ => rfl, fun _ _ _ _ => rfl⟩

theorem SegB.comp {B L : ℕ} {g1 g2 : ℕ → ℕ} {f1 f2 : Ptr → State → State} (h1 : SegB B L g1 f1) (h2 : SegB B L g2 f2) (hg : ∀ w < L, g2 w < L) :
    SegB B L (fun w => g1 (g2 w)) (fun p st => f2 p (f1 p st)) := by
  intro p st hp hB hpB
  obtain ⟨a1, a2, a3⟩ := h1 p st hp hB hpB
  obtain ⟨b1, b2, b3⟩ := h2 p (f1 p st) (lt_of_lt_of_le hp a1) (lt_of_lt_of_le hB a1) hpB
  refine ⟨le_trans a1 b1, fun w hw => ?_, fun q hq hq' hn => ?_⟩
  · rw [b2 w hw, a2 _ (hg w hw)]
  · rw [b3 q (lt_of_lt_of_le hq a1) hq' hn, a3 q hq hq' hn]

/-- one segment after the other -/
theorem SegB.blocks {B E : ℕ} {g : ℕ → ℕ} {f : Ptr → State → State} (h : SegB B E g f) (hg : ∀ w < E, g w < E) (d : ℕ) :
    SegB B (d * E) (fun w => w / E * E + g (w % E)) (fun p st => forN d (fun i st => f (p + (i : ℤ) * (E : ℤ)) st) st) := by
  intro p st hp hB hpB
  have key : ∀ st' : State, st' = forN d (fun i st => f (p + (i : ℤ) * (E : ℤ)) st) st → st.next ≤ st'.next ∧
      (∀ i < d, ∀ w < E, st'.mem (p + ((i * E + w : ℕ) : ℤ)) = st.mem (p + ((i * E + g w : ℕ) : ℤ))) ∧
      ∀ q : Ptr, q.blk < st.next → q.blk ≠ B → (∀ i < d, ∀ w < E, q ≠ p + ((i * E + w : ℕ) : ℤ)) → st'.mem q = st.mem q := by
    rintro _ rfl
    refine forN_inv (P := fun d st' => st.next ≤ st'.next ∧
      (∀ i < d, ∀ w < E, st'.mem (p + ((i * E + w : ℕ) : ℤ)) = st.mem (p + ((i * E + g w : ℕ) : ℤ))) ∧
      ∀ q : Ptr, q.blk < st.next → q.blk ≠ B → (∀ i < d, ∀ w < E, q ≠ p + ((i * E + w : ℕ) : ℤ)) → st'.mem q = st.mem q) ?_ ?_
    · exact ⟨le_refl _, fun i hi => absurd hi (by omega), fun _ _ _ _ => rfl⟩
    · rintro j _ s ⟨a1, a2, a3⟩
      have ej : p + (j : ℤ) * (E : ℤ) = p + ((j * E : ℕ) : ℤ) := by push_cast; rfl
      rw [ej]
      obtain ⟨b1, b2, b3⟩ := h (p + ((j * E : ℕ) : ℤ)) s (lt_of_lt_of_le hp a1) (lt_of_lt_of_le hB a1) hpB
      refine ⟨le_trans a1 b1, ?_, ?_⟩
      · intro i hi w hw
        by_cases e : i = j
        · subst e
          rw [← ptr_nat, b2 w hw, ptr_nat]
          refine a3 _ hp hpB ?_
          intro i' hi' w' hw' e
          rw [ptr_nat_inj] at e
          have := (radix (hg w hw) hw' e).1
          omega
        · rw [b3 (p + ((i * E + w : ℕ) : ℤ)) (lt_of_lt_of_le hp a1) hpB, a2 i (by omega) w hw]
          intro w' hw' e'
          rw [ptr_nat, ptr_nat_inj] at e'
          exact e (radix hw hw' e').1
      · intro q hq hq' hn
        rw [b3 q (lt_of_lt_of_le hq a1) hq' (fun w hw => by rw [ptr_nat]; exact hn j (by omega) w hw), a3 q hq hq' fun i hi => hn i (by omega)]
  obtain ⟨k1, k2, k3⟩ := key _ rfl
  refine ⟨k1, ?_, ?_⟩
  · intro w hw
    obtain ⟨i, v, hi, hv, rfl⟩ := radix_split hw
    rw [k2 i hi v hv]
    have h1 : (i * E + v) / E = i := by rw [Nat.add_comm, Nat.add_mul_div_right _ _ (by omega), Nat.div_eq_of_lt hv]; omega
    have h2 : (i * E + v) % E = v := by rw [Nat.add_comm, Nat.add_mul_mod_self_right, Nat.mod_eq_of_lt hv]
    simp only [h1, h2]
  · intro q hq hq' hn
    exact k3 q hq hq' fun i hi w hw => hn _ (lt_radix hi hw)

end FFTW.RdftS
