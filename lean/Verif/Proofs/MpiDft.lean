import Verif.Spec.MpiSound
import Verif.Model.MpiDft
import Verif.Proofs.MpiRecurse3
import Verif.Proofs.Writes

/-! local DFTs of distributed arrays -/

namespace FFTW.Mpi
open Tensor Spec RdftS

/-- offset of an index in an array with sizes and strides `l` -/
def lin : List (ℕ × ℕ) → List ℕ → ℕ
  | e :: l, k :: ks => k * e.2 + lin l ks
  | _, _ => 0

/-- a complex number: its real and imaginary parts are exchanged for backward transforms -/
noncomputable def cval (bwd : Bool) (m : Ptr → ℝ) (P : Ptr) (x : ℕ) : ℂ := val m (P + roff bwd) (ioff bwd - roff bwd) ((x * 2 : ℕ) : ℤ)

theorem elt_eq (bwd : Bool) (vn : ℕ) (comm : Comm) (P : ℕ → Ptr) (st : Dist) (r x v : ℕ) :
    elt bwd vn comm P st (r, x) v = cval bwd (st (comm.at r)).mem (P (comm.at r)) (x * vn + v) := by
  unfold elt cval
  rw [val_c]
  cases bwd with
  | true =>
    simp only [if_true, roff, ioff, if_pos]
    rw [Ptr.add_add, Ptr.add_add, Ptr.add_add]
    congr 2
    · rw [add_comm]
    · congr 1; ring
  | false =>
    simp only [roff, ioff, Bool.false_eq_true, if_false]
    rw [Ptr.add_zero, Ptr.add_add]
    congr 2
    congr 1; ring

/-- `2 n` numbers instead of `n` complex numbers -/
def dbl (l : List (ℕ × ℕ)) : List Dim := l.map fun e => eqDim e.1 (e.2 * 2)

/-- the same with integer strides -/
def zst (l : List (ℕ × ℕ)) : List (ℕ × ℤ) := l.map fun e => (e.1, (e.2 : ℤ))

theorem offs_dbl (l : List (ℕ × ℕ)) : offs ((dbl l).map fun d => (d.n, d.is)) = (offs (zst l)).map fun x => x * 2 := by
  have h := offs_map (AddMonoidHom.mulRight (2 : ℤ)) (zst l)
  have e : (zst l).map (fun p => (p.1, AddMonoidHom.mulRight (2 : ℤ) p.2)) = (dbl l).map fun d => (d.n, d.is) := by
    unfold dbl zst
    rw [List.map_map, List.map_map]
    apply List.map_congr_left
    intro e _
    simp [eqDim]
  rw [← e]
  exact h.symm

theorem dbl_append (a b : List (ℕ × ℕ)) : dbl (a ++ b) = dbl a ++ dbl b := List.map_append

/-- components -/
theorem cplx_bounds {l : List (ℕ × ℕ)} {N : ℕ} (h : Fits (zst l) N) (bwd : Bool) {x : ℤ}
    (hx : x ∈ offs ((2, ioff bwd - roff bwd) :: (dbl l).map fun d => (d.n, d.is))) : 0 ≤ roff bwd + x ∧ roff bwd + x < 2 * N := by
  obtain ⟨i, hi, y, hy, rfl⟩ := mem_offs_cons.1 hx
  rw [offs_dbl, Multiset.mem_map] at hy
  obtain ⟨z, hz, rfl⟩ := hy
  obtain ⟨b0, b1⟩ := h.bounds z hz
  have : i = 0 ∨ i = 1 := by omega
  rcases this with rfl | rfl <;> cases bwd <;> simp [ioff, roff] <;> omega

theorem cplx_nodup {l : List (ℕ × ℕ)} {N : ℕ} (h : Fits (zst l) N) (bwd : Bool) :
    (offs ((2, ioff bwd - roff bwd) :: (dbl l).map fun d => (d.n, d.is))).Nodup := by
  rw [offs_cons, offs_dbl, Multiset.nodup_bind]
  have hm : ((offs (zst l)).map fun x => x * 2).Nodup := h.nodup.map (fun a b e => by simpa using e)
  refine ⟨fun i _ => hm.map (fun a b e => by simpa using e), ?_⟩
  refine Multiset.Nodup.pairwise ?_ (Multiset.nodup_range 2)
  intro i hi j hj hij
  simp only [Function.onFun]
  rw [Multiset.disjoint_left]
  intro x hx hx'
  simp only [Multiset.mem_map] at hx hx'
  obtain ⟨_, ⟨y, _, rfl⟩, e⟩ := hx
  obtain ⟨_, ⟨z, _, rfl⟩, e'⟩ := hx'
  rw [Multiset.mem_range] at hi hj
  have : (i = 0 ∧ j = 1) ∨ (i = 1 ∧ j = 0) := by omega
  rcases this with ⟨rfl, rfl⟩ | ⟨rfl, rfl⟩ <;> cases bwd <;> simp [ioff, roff] at e e' <;> omega

theorem dbl_same (l : List (ℕ × ℕ)) : (dbl l).map (fun d => (d.n, d.os)) = (dbl l).map fun d => (d.n, d.is) := by
  unfold dbl; rw [List.map_map, List.map_map]; rfl

theorem ins_dbl (δ δ' : ℤ) (a b : List (ℕ × ℕ)) : ins (locT ℂ δ δ' (tag (dbl a)) (some (dbl b))) = offs ((2, δ) :: (dbl (a ++ b)).map fun d => (d.n, d.is)) := by
  rw [locT_some, map_fst_tag, ← dbl_append]; rfl
theorem outs_dbl (δ δ' : ℤ) (a b : List (ℕ × ℕ)) : outs (locT ℂ δ δ' (tag (dbl a)) (some (dbl b))) = offs ((2, δ') :: (dbl (a ++ b)).map fun d => (d.n, d.is)) := by
  rw [locT_some, map_fst_tag, ← dbl_append, ← dbl_same]; rfl

theorem off_sub (P : Ptr) (a b : ℤ) : (P + a) - (P + b) = a - b := by
  show (P.off + a) - (P.off + b) = a - b
  ring

/-- `Index`es as tagged dimensions -/
theorem gIdx_dbl : ∀ (l : List (ℕ × ℕ)) (k : List ℕ), Index (l.map Prod.fst) k → GIdx (tag (dbl l)) ((tag (dbl l)).zip k) ∧
    gOut ((tag (dbl l)).zip k) = ((lin l k * 2 : ℕ) : ℤ) ∧
    ∀ x : ℤ → ℂ, gSum dftK ((tag (dbl l)).zip k) x = dftSum (l.map Prod.fst) k fun j => x ((lin l j * 2 : ℕ) : ℤ) := by
  intro l
  induction l with
  | nil =>
    intro k hk
    cases hk
    exact ⟨⟨rfl, by simp [tag, dbl]⟩, rfl, fun x => rfl⟩
  | cons e l ih =>
    intro k hk
    cases hk with
    | @cons i _ ks _ hi hk =>
    obtain ⟨h1, h2, h3⟩ := ih ks hk
    refine ⟨⟨?_, ?_⟩, ?_, ?_⟩
    · show ((eqDim e.1 (e.2 * 2), ()) :: ((tag (dbl l)).zip ks).map Prod.fst) = _
      rw [h1.1]; rfl
    · intro x hx
      rcases List.mem_cons.1 (show x ∈ ((eqDim e.1 (e.2 * 2), ()), i) :: (tag (dbl l)).zip ks from hx) with rfl | hx
      · exact hi
      · exact h1.2 x hx
    · show (i : ℤ) * ((e.2 * 2 : ℕ) : ℤ) + gOut ((tag (dbl l)).zip ks) = _
      rw [h2]
      show _ = (((i * e.2 + lin l ks) * 2 : ℕ) : ℤ)
      push_cast; ring
    · intro x
      show ∑ j ∈ Finset.range e.1, dftK () e.1 j i * gSum dftK ((tag (dbl l)).zip ks) (fun o => x (j * ((e.2 * 2 : ℕ) : ℤ) + o)) =
        ∑ j ∈ Finset.range e.1, dftK () e.1 j i * dftSum (l.map Prod.fst) ks fun js => x (((j * e.2 + lin l js) * 2 : ℕ) : ℤ)
      refine Finset.sum_congr rfl fun j _ => ?_
      rw [h3]
      congr 2
      funext js
      congr 1
      push_cast; ring

theorem pairs_dbl : ∀ (l : List (ℕ × ℕ)) (u : List ℕ), Index (l.map Prod.fst) u → (((lin l u * 2 : ℕ) : ℤ), ((lin l u * 2 : ℕ) : ℤ)) ∈ pairs (some (dbl l)) := by
  intro l
  induction l with
  | nil => intro u hu; cases hu; simp [pairs, dbl, offs, lin]
  | cons e l ih =>
    intro u hu
    cases hu with
    | @cons i _ ks _ hi hk =>
    have := mem_pairsC (d := eqDim e.1 (e.2 * 2)) hi (ih ks hk)
    refine mem_cast this ?_ ?_ <;> simp [eqDim, lin] <;> ring

variable [CLib]

theorem dbl_nonneg (l : List (ℕ × ℕ)) : NonNeg (dbl l) := by
  intro d hd
  obtain ⟨e, _, rfl⟩ := List.mem_map.1 hd
  simp [eqDim]

theorem kosher_dftPr {a b : List (ℕ × ℕ)} {N : ℕ} (hf : Fits (zst (a ++ b)) N) (hp : ∀ e ∈ a, 0 < e.1) {bwd : Bool} {P Q : Ptr} (h : P ≠ Q → Far P Q (2 * N)) :
    Kosher (dftPr bwd (dbl a) (dbl b) P Q) := by
  refine kosher_mkproblemDft (dbl_nonneg a) (nonNegV_some.2 (dbl_nonneg b)) ?_ ?_
  · intro d hd
    obtain ⟨e, he, rfl⟩ := List.mem_map.1 hd
    exact hp e he
  · intro hne x hx y hy
    rw [off_sub, off_sub, ins_dbl] at hx
    rw [off_sub, off_sub, outs_dbl] at hy
    obtain ⟨x0, x1⟩ := cplx_bounds hf bwd hx
    obtain ⟨y0, y1⟩ := cplx_bounds hf bwd hy
    have := h (fun e => hne (by rw [e])) (roff bwd + x).toNat (by omega) (roff bwd + y).toNat (by omega)
    rw [Int.toNat_of_nonneg x0, Int.toNat_of_nonneg y0] at this
    rwa [Ptr.add_add, Ptr.add_add]

/-- what a plan for a local DFT does -/
theorem local_dft {a b : List (ℕ × ℕ)} {N : ℕ} (hf : Fits (zst (a ++ b)) N) {nd bwd : Bool} {P0 Q0 : Ptr} {c : Plan} (h : FFTW.Sound nd (dftPr bwd (dbl a) (dbl b) P0 Q0) c)
    {P Q : Ptr} {st : State} (bP : P.blk < st.next) (bQ : Q.blk < st.next) (hs : P0 = Q0 → P = Q) (hd : P0 ≠ Q0 → Far P Q (2 * N)) :
    Frame st (applyDft bwd c P Q st) (PW nd P Q (2 * N)) ∧
      ∀ k, Index (a.map Prod.fst) k → ∀ u, Index (b.map Prod.fst) u →
        cval bwd (applyDft bwd c P Q st).mem Q (lin a k + lin b u) = dftSum (a.map Prod.fst) k fun j => cval bwd st.mem P (lin a j + lin b u) := by
  obtain ⟨h1, h2⟩ := sound_mkproblemDft h
  rw [off_sub, off_sub] at h1 h2
  have heq : ∀ {x y : Ptr}, x + roff bwd = y + roff bwd ↔ x = y := ⟨ptr_cancel, fun e => by rw [e]⟩
  obtain ⟨g1, g2⟩ := h1 ⟨by rw [outs_dbl]; exact cplx_nodup hf bwd, fun _ => by rw [ins_dbl]; exact cplx_nodup hf bwd,
    fun _ => by rw [ins_dbl, outs_dbl], fun _ => rfl⟩ (P + roff bwd) (Q + roff bwd) st ⟨by simpa using bP, by simpa using bQ, fun e => heq.2 (hs (heq.1 (by simpa using e))), fun e x hx y hy => by
      rw [ins_dbl] at hx
      rw [outs_dbl] at hy
      obtain ⟨x0, x1⟩ := cplx_bounds hf bwd hx
      obtain ⟨y0, y1⟩ := cplx_bounds hf bwd hy
      have := hd (fun e' => (by simpa using e : P0 + roff bwd ≠ Q0 + roff bwd) (by rw [e'])) (roff bwd + x).toNat (by omega) (roff bwd + y).toNat (by omega)
      rw [Int.toNat_of_nonneg x0, Int.toNat_of_nonneg y0] at this
      rwa [Ptr.add_add, Ptr.add_add]⟩
  have ea : (fun I O => c.dftApply I (I + (ioff bwd - roff bwd)) O (O + (ioff bwd - roff bwd))) (P + roff bwd) (Q + roff bwd) st = applyDft bwd c P Q st := by
    unfold applyDft
    beta_reduce
    rw [Ptr.add_add, Ptr.add_add, add_sub_cancel]
  rw [ea] at g1 g2
  constructor
  · refine g1.mono ?_
    rintro q _ (⟨y, hy, e⟩ | ⟨hn, y, hy, e⟩)
    · rw [outs_dbl] at hy
      obtain ⟨y0, y1⟩ := cplx_bounds hf bwd hy
      exact Or.inl ⟨(roff bwd + y).toNat, by omega, by rw [Int.toNat_of_nonneg y0, e, Ptr.add_add]⟩
    · rw [ins_dbl] at hy
      obtain ⟨y0, y1⟩ := cplx_bounds hf bwd hy
      exact Or.inr ⟨hn, (roff bwd + y).toNat, by omega, by rw [Int.toNat_of_nonneg y0, e, Ptr.add_add]⟩
  · intro k hk u hu
    obtain ⟨i1, i2, i3⟩ := gIdx_dbl a k hk
    have := g2 _ i1 _ (pairs_dbl b u hu)
    rw [i2, i3] at this
    unfold cval
    simp only [← Nat.cast_add, ← Nat.add_mul] at this
    exact this

end FFTW.Mpi
