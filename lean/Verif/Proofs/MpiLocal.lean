import Verif.Spec.Mpi
import Verif.Model.MpiTranspose
import Verif.Proofs.RdftProblem
import Verif.Proofs.Real1
import Verif.Proofs.Index
import Verif.Proofs.Problem

/-! local copies of contiguous arrays -/

namespace FFTW.Mpi
open Tensor Spec RdftS

/-- strides of nested arrays: everything inside fits -/
inductive Nest : List (ℕ × ℤ) → ℕ → Prop
  | nil : Nest [] 1
  | cons {l : List (ℕ × ℤ)} {N n s M : ℕ} {z : ℤ} : Nest l N → N ≤ s → (∀ i < n, i * s + N ≤ M) → z = s → Nest ((n, z) :: l) M

theorem Nest.bounds {l : List (ℕ × ℤ)} {N : ℕ} (h : Nest l N) : ∀ x ∈ offs l, 0 ≤ x ∧ x < N := by
  induction h with
  | nil => intro x hx; rw [mem_offs_nil] at hx; omega
  | @cons l N n s M z h hs hM hz ih =>
    subst hz
    intro x hx
    obtain ⟨i, hi, y, hy, rfl⟩ := mem_offs_cons.1 hx
    obtain ⟨h0, h1⟩ := ih y hy
    have h3 := hM i hi
    have e : ((i * s : ℕ) : ℤ) = (i : ℤ) * s := by push_cast; ring
    omega

theorem Nest.nodup {l : List (ℕ × ℤ)} {N : ℕ} (h : Nest l N) : (offs l).Nodup := by
  induction h with
  | nil => simp [offs]
  | @cons l N n s M z h hs hM hz ih =>
    subst hz
    rw [offs_cons, Multiset.nodup_bind]
    refine ⟨fun i _ => ih.map (fun a b e => by simpa using e), ?_⟩
    refine Multiset.Nodup.pairwise ?_ (Multiset.nodup_range n)
    intro i hi j hj hij
    simp only [Function.onFun]
    rw [Multiset.disjoint_left]
    intro x hx hx'
    obtain ⟨y, hy, e⟩ := Multiset.mem_map.1 hx
    obtain ⟨y', hy', e'⟩ := Multiset.mem_map.1 hx'
    obtain ⟨b1, b2⟩ := h.bounds y hy
    obtain ⟨b3, b4⟩ := h.bounds y' hy'
    rcases Nat.lt_or_gt_of_ne hij with hlt | hlt
    · have : (i + 1) * s ≤ j * s := Nat.mul_le_mul_right _ hlt
      have e1 : ((i + 1) * s : ℕ) = ((i : ℤ) * s + s) := by push_cast; ring
      have e2 : ((j * s : ℕ) : ℤ) = (j : ℤ) * s := by push_cast; ring
      omega
    · have : (j + 1) * s ≤ i * s := Nat.mul_le_mul_right _ hlt
      have e1 : ((j + 1) * s : ℕ) = ((j : ℤ) * s + s) := by push_cast; ring
      have e2 : ((i * s : ℕ) : ℤ) = (i : ℤ) * s := by push_cast; ring
      omega

variable [CLib]

/-- the offsets of a list of dimensions are distinct and lie below `N` -/
structure Fits (l : List (ℕ × ℤ)) (N : ℕ) : Prop where
  nodup : (offs l).Nodup
  bounds : ∀ x ∈ offs l, 0 ≤ x ∧ x < N

theorem Nest.fits {l l' : List (ℕ × ℤ)} {N N' : ℕ} (h : Nest l N) (hp : l'.Perm l) (hn : N ≤ N') : Fits l' N' := by
  refine ⟨by rw [offs_perm hp]; exact h.nodup, fun x hx => ?_⟩
  rw [offs_perm hp] at hx
  have := h.bounds x hx
  omega

/-- dimensions of a copy: from `Ni` numbers to `No` numbers -/
structure Copy (l : List Dim) (Ni No : ℕ) : Prop where
  i : Fits (l.map fun d => (d.n, d.is)) Ni
  o : Fits (l.map fun d => (d.n, d.os)) No

theorem kosher_rdft0 {l : List Dim} {Ni No : ℕ} (hc : Copy l Ni No) {P Q : Ptr}
    (h : P ≠ Q → ∀ x < Ni, ∀ y < No, P + (x : ℤ) ≠ Q + (y : ℤ)) : Kosher (rdft0 l P Q) := by
  refine kosher_mkproblemRdft (by intro e he; simp at he) ?_
  intro hne a ha b hb
  have ha' : a ∈ offs (l.map fun d => (d.n, d.is)) := ha
  have hb' : b ∈ offs (l.map fun d => (d.n, d.os)) := hb
  obtain ⟨a0, a1⟩ := hc.i.bounds a ha'
  obtain ⟨b0, b1⟩ := hc.o.bounds b hb'
  have := h hne a.toNat (by omega) b.toNat (by omega)
  rwa [Int.toNat_of_nonneg a0, Int.toNat_of_nonneg b0] at this

/-- what a plan for a copy does -/
theorem copy_ok {nd : Bool} {l : List Dim} {Ni No : ℕ} (hc : Copy l Ni No) {P0 Q0 : Ptr} {c : Plan} (h : Sound nd (rdft0 l P0 Q0) c)
    {P Q : Ptr} {st : State} (bP : P.blk < st.next) (bQ : Q.blk < st.next) (hs : P0 = Q0 → P = Q)
    (hd : P0 ≠ Q0 → ∀ x < Ni, ∀ y < No, P + (x : ℤ) ≠ Q + (y : ℤ)) :
    Frame st (c.rdftApply P Q st) (fun q => (∃ b ∈ outs (some l), q = Q + b) ∨ (nd = false ∧ ∃ a ∈ ins (some l), q = P + a)) ∧
      ∀ ab ∈ pairs (some l), (c.rdftApply P Q st).mem (Q + ab.2) = st.mem (P + ab.1) := by
  obtain ⟨h1, h2⟩ := sound_mkproblemRdft (by intro e he; simp at he) h
  have ei : ins (locT ℝ 0 0 ([] : List (Dim × RKind)) (some l)) = offs (l.map fun d => (d.n, d.is)) := by rw [ins_locT_real]; rfl
  have eo : outs (locT ℝ 0 0 ([] : List (Dim × RKind)) (some l)) = offs (l.map fun d => (d.n, d.os)) := by rw [outs_locT_real]; rfl
  obtain ⟨g1, g2⟩ := h1 ⟨by rw [eo]; exact hc.o.nodup, fun _ => by rw [ei]; exact hc.i.nodup, fun e => h2 (by simpa using e), fun _ => rfl⟩ P Q st
    ⟨bP, bQ, fun e => hs (by simpa using e), fun e a ha b hb => by
      rw [ei] at ha; rw [eo] at hb
      obtain ⟨a0, a1⟩ := hc.i.bounds a ha
      obtain ⟨b0, b1⟩ := hc.o.bounds b hb
      have := hd (by simpa using e) a.toNat (by omega) b.toNat (by omega)
      rwa [Int.toNat_of_nonneg a0, Int.toNat_of_nonneg b0] at this⟩
  refine ⟨g1.mono ?_, ?_⟩
  · rintro q _ (⟨b, hb, e⟩ | ⟨hn, a, ha, e⟩)
    · rw [eo] at hb; exact Or.inl ⟨b, hb, e⟩
    · rw [ei] at ha; exact Or.inr ⟨hn, a, ha, e⟩
  · intro ab hab
    have := g2 [] ⟨rfl, by simp⟩ ab hab
    simp only [gSum, gOut, List.map_nil, List.sum_nil, zero_add, val_r] at this
    exact this

/-- an empty copy changes nothing -/
theorem copy_empty {nd : Bool} {l : List Dim} (hl : pairs (some l) = 0) {P0 Q0 : Ptr} {c : Plan} (h : Sound nd (rdft0 l P0 Q0) c)
    {P Q : Ptr} {st : State} (bP : P.blk < st.next) (bQ : Q.blk < st.next) : Frame st (c.rdftApply P Q st) (fun _ => False) := by
  have h1 : GOK rK [] none 0 0 false nd c.rdftApply := sound_mkproblemRdft_empty hl rfl h false
  have e : ins (locT ℝ 0 0 ([] : List (Dim × RKind)) none) = 0 ∧ outs (locT ℝ 0 0 ([] : List (Dim × RKind)) none) = 0 := by rw [locT_none]; exact ⟨rfl, rfl⟩
  obtain ⟨g1, _⟩ := h1 ⟨by rw [e.2]; simp, fun _ => by rw [e.1]; simp, by simp, by simp⟩ P Q st ⟨bP, bQ, by simp, fun _ a ha => by rw [e.1] at ha; simp at ha⟩
  refine g1.mono ?_
  rintro q _ (⟨b, hb, _⟩ | ⟨_, b, hb, _⟩)
  · rw [e.2] at hb; simp at hb
  · rw [e.1] at hb; simp at hb

/-- `q` is one of the `n` numbers at `P` -/
def In (P : Ptr) (n : ℕ) (q : Ptr) : Prop := ∃ x < n, q = P + (x : ℤ)

/-- the same, with the writable locations as whole arrays -/
theorem copy_ok' {nd : Bool} {l : List Dim} {Ni No : ℕ} (hc : Copy l Ni No) {P0 Q0 : Ptr} {c : Plan} (h : Sound nd (rdft0 l P0 Q0) c)
    {P Q : Ptr} {st : State} (bP : P.blk < st.next) (bQ : Q.blk < st.next) (hs : P0 = Q0 → P = Q)
    (hd : P0 ≠ Q0 → ∀ x < Ni, ∀ y < No, P + (x : ℤ) ≠ Q + (y : ℤ)) :
    Frame st (c.rdftApply P Q st) (fun q => In Q No q ∨ (nd = false ∧ In P Ni q)) ∧
      ∀ ab ∈ pairs (some l), (c.rdftApply P Q st).mem (Q + ab.2) = st.mem (P + ab.1) := by
  obtain ⟨h1, h2⟩ := copy_ok hc h bP bQ hs hd
  refine ⟨h1.mono ?_, h2⟩
  rintro q _ (⟨b, hb, e⟩ | ⟨hn, a, ha, e⟩)
  · obtain ⟨b0, b1⟩ := hc.o.bounds b hb
    exact Or.inl ⟨b.toNat, by omega, by rw [Int.toNat_of_nonneg b0]; exact e⟩
  · obtain ⟨b0, b1⟩ := hc.i.bounds a ha
    exact Or.inr ⟨hn, a.toNat, by omega, by rw [Int.toNat_of_nonneg b0]; exact e⟩

end FFTW.Mpi
