import Mathlib.Data.Multiset.Bind
import Mathlib.Data.Multiset.Range
import Mathlib.Algebra.BigOperators.Group.Finset.Basic
import Mathlib.Algebra.Order.Group.Multiset

/-!
# What a list of loop dimensions denotes

A list of `(extent, stride)` pairs denotes the multiset of all offsets `∑ j_d • stride_d`, `0 ≤ j_d < extent_d`
(strides may be integers, or pairs (input stride, output stride)).
-/

namespace FFTW.Spec

variable {M N : Type*} [AddCommMonoid M] [AddCommMonoid N]

/-- all offsets visited by a nest of loops -/
def offs : List (ℕ × M) → Multiset M
  | [] => {0}
  | (n, s) :: l => (Multiset.range n).bind fun j => (offs l).map fun x => j • s + x

/-- `x` is visited iff it is `∑ j_d • s_d` for some index vector `j` within the extents -/
theorem mem_offs (l : List (ℕ × M)) (x : M) :
    x ∈ offs l ↔ ∃ js : List ℕ, List.Forall₂ (fun d j => j < d.1) l js ∧ x = ((l.zip js).map fun p => p.2 • p.1.2).sum := by
  induction l generalizing x with
  | nil =>
    simp only [offs, Multiset.mem_singleton]
    constructor
    · rintro rfl; exact ⟨[], .nil, by simp⟩
    · rintro ⟨js, _, rfl⟩; simp
  | cons d l ih =>
    obtain ⟨n, s⟩ := d
    simp only [offs, Multiset.mem_bind, Multiset.mem_range, Multiset.mem_map]
    constructor
    · rintro ⟨j, hj, y, hy, rfl⟩
      obtain ⟨js, h1, rfl⟩ := (ih y).1 hy
      exact ⟨j :: js, .cons hj h1, by simp⟩
    · rintro ⟨js, h1, rfl⟩
      cases h1 with
      | cons h1 h2 =>
        rename_i j js
        exact ⟨j, h1, _, (ih _).2 ⟨js, h2, rfl⟩, by simp⟩

theorem offs_perm {l l' : List (ℕ × M)} (h : l.Perm l') : offs l = offs l' := by
  induction h with
  | nil => rfl
  | cons d _ ih => obtain ⟨n, s⟩ := d; simp only [offs, ih]
  | swap d e l =>
    obtain ⟨n, s⟩ := d; obtain ⟨n', s'⟩ := e
    simp only [offs, Multiset.map_bind]
    rw [Multiset.bind_bind]
    simp only [Multiset.map_map, Function.comp_def]
    refine Multiset.bind_congr fun a _ => Multiset.bind_congr fun b _ => Multiset.map_congr rfl fun x _ => ?_
    rw [← add_assoc, ← add_assoc, add_comm (b • s')]
  | trans _ _ ih1 ih2 => exact ih1.trans ih2

theorem offs_one (s : M) (l : List (ℕ × M)) : offs ((1, s) :: l) = offs l := by
  simp [offs, Multiset.range_succ]

theorem offs_zero (s : M) (l : List (ℕ × M)) : offs ((0, s) :: l) = 0 := by
  simp [offs]

theorem range_mul (a b : ℕ) :
    Multiset.range (a * b) = (Multiset.range a).bind fun i => (Multiset.range b).map fun j => i * b + j := by
  induction a with
  | zero => simp
  | succ a ih =>
    rw [Nat.succ_mul, Multiset.range_add, ih, Multiset.range_succ, Multiset.cons_bind, add_comm]

/-- merging two dimensions that form one contiguous run -/
theorem offs_merge (a b : ℕ) (s : M) (l : List (ℕ × M)) : offs ((a, b • s) :: (b, s) :: l) = offs ((a * b, s) :: l) := by
  simp only [offs, Multiset.map_bind]
  rw [range_mul, Multiset.bind_assoc]
  refine Multiset.bind_congr fun i _ => ?_
  rw [Multiset.bind_map]
  refine Multiset.bind_congr fun j _ => ?_
  rw [Multiset.map_map]
  refine Multiset.map_congr rfl fun x _ => ?_
  simp only [Function.comp]
  rw [add_nsmul, mul_nsmul', add_assoc]

theorem offs_append (l l' : List (ℕ × M)) : offs (l ++ l') = (offs l).bind fun x => (offs l').map fun y => x + y := by
  induction l with
  | nil => simp [offs]
  | cons d l ih =>
    obtain ⟨n, s⟩ := d
    simp only [List.cons_append, offs, ih, Multiset.map_bind, Multiset.bind_assoc]
    refine Multiset.bind_congr fun j _ => ?_
    rw [Multiset.bind_map]
    refine Multiset.bind_congr fun x _ => ?_
    rw [Multiset.map_map]
    refine Multiset.map_congr rfl fun y _ => ?_
    simp [add_assoc]

theorem offs_map (f : M →+ N) (l : List (ℕ × M)) : (offs l).map f = offs (l.map fun d => (d.1, f d.2)) := by
  induction l with
  | nil => simp [offs]
  | cons d l ih =>
    obtain ⟨n, s⟩ := d
    simp only [offs, List.map_cons, Multiset.map_bind, ← ih, Multiset.map_map]
    refine Multiset.bind_congr fun j _ => Multiset.map_congr rfl fun x _ => ?_
    simp

theorem card_offs (l : List (ℕ × M)) : Multiset.card (offs l) = (l.map Prod.fst).prod := by
  induction l with
  | nil => simp [offs]
  | cons d l ih =>
    obtain ⟨n, s⟩ := d
    simp only [offs, Multiset.card_bind, Function.comp_def, Multiset.card_map, ih, List.map_cons, List.prod_cons]
    simp

end FFTW.Spec
