import Verif.Model.RowMajor
import Verif.Proofs.Primes1
import Mathlib.Data.List.Forall2
import Mathlib.Algebra.Order.Ring.Abs
import Mathlib.Tactic.Ring
import Mathlib.Tactic.Linarith

/-!
# C39: row-major and padded layouts
-/

namespace FFTW.Props
open FFTW.RowMajor FFTW.Primes

/-- C's address of `a[i0][i1]...[ik]` in an array declared with dimensions `N0, N1, …` (`N0` irrelevant): Horner's rule. -/
def rowMajorIndex : List (Int × Int) → Int          -- pairs (Nj, ij)
  | l => l.foldl (fun acc p => acc * p.1 + p.2) 0

/-- location described by a tensor (input side / output side) at an index vector -/
def inOffset (ds : List IoDim) (idx : List Int) : Int := ((ds.zip idx).map fun p => p.1.is * p.2).sum
/-- output side -/
def outOffset (ds : List IoDim) (idx : List Int) : Int := ((ds.zip idx).map fun p => p.1.os * p.2).sum

private theorem foldl_lin (l : List (Int × Int)) : ∀ a : Int, l.foldl (fun acc p => acc * p.1 + p.2) a = a * (l.map Prod.fst).prod + l.foldl (fun acc p => acc * p.1 + p.2) 0 := by
  induction l with
  | nil => intro a; simp
  | cons p l ih =>
    intro a
    simp only [List.foldl_cons, List.map_cons, List.prod_cons]
    rw [ih (a * p.1 + p.2), ih (0 * p.1 + p.2)]; ring

private theorem prod_pos (l : List Int) (h : ∀ x ∈ l, 1 ≤ x) : 1 ≤ l.prod := by
  induction l with
  | nil => simp
  | cons a l ih =>
    have h1 := h a (by simp)
    have h2 := ih (fun x hx => h x (by simp [hx]))
    simp only [List.prod_cons]; nlinarith

/-- what `mktensor_rowmajor` computes -/
private theorem rowmajor_spec : ∀ (l : List (Int × Int × Int)) (is os : Int), (∀ d ∈ l, 1 ≤ d.2.1 ∧ 1 ≤ d.2.2) →
    |is| * (l.tail.map fun d => d.2.1).prod ≤ INT_MAX → |os| * (l.tail.map fun d => d.2.2).prod ≤ INT_MAX →
    ∃ ds, mktensorRowmajor l is os = some ds ∧ ds.length = l.length ∧ ds.map (·.n) = l.map (·.1) ∧
      (∀ d ds', ds = d :: ds' → d.is = is * (l.tail.map fun d => d.2.1).prod ∧ d.os = os * (l.tail.map fun d => d.2.2).prod) ∧
      (∀ idx : List Int, idx.length = l.length →
        inOffset ds idx = is * ((l.map fun d => d.2.1).zip idx).foldl (fun acc p => acc * p.1 + p.2) 0 ∧
        outOffset ds idx = os * ((l.map fun d => d.2.2).zip idx).foldl (fun acc p => acc * p.1 + p.2) 0) := by
  intro l
  induction l with
  | nil => intro is os _ _ _; exact ⟨[], rfl, rfl, rfl, by simp, by intro idx h; simp [inOffset, outOffset]⟩
  | cons a l ih =>
    intro is os hpos hi ho
    obtain ⟨n, ni, no⟩ := a
    cases l with
    | nil =>
      refine ⟨[{ n := n, is := is, os := os }], rfl, rfl, rfl, by simp, ?_⟩
      intro idx hidx
      match idx, hidx with
      | [x], _ => simp [inOffset, outOffset]
    | cons b rest =>
      obtain ⟨n', ni', no'⟩ := b
      simp only [List.tail_cons] at hi ho
      have hb := hpos (n', ni', no') (by simp)
      simp only at hb
      have hPi := prod_pos (rest.map fun d => d.2.1) (by
        intro x hx; obtain ⟨d, hd, rfl⟩ := List.mem_map.1 hx; exact (hpos d (by simp [hd])).1)
      have hPo := prod_pos (rest.map fun d => d.2.2) (by
        intro x hx; obtain ⟨d, hd, rfl⟩ := List.mem_map.1 hx; exact (hpos d (by simp [hd])).2)
      simp only [List.map_cons, List.prod_cons] at hi ho
      have hai := abs_nonneg is
      have hao := abs_nonneg os
      obtain ⟨ds, h1, h2, h3, h4, h5⟩ := ih is os (fun d hd => hpos d (by simp [hd]))
        (by simp only [List.tail_cons]; have := mul_nonneg hai (show 0 ≤ (rest.map fun d => d.2.1).prod by omega); nlinarith)
        (by simp only [List.tail_cons]; have := mul_nonneg hao (show 0 ≤ (rest.map fun d => d.2.2).prod by omega); nlinarith)
      match ds, h2 with
      | d :: ds', h2 =>
        obtain ⟨e1, e2⟩ := h4 d ds' rfl
        simp only [List.tail_cons] at e1 e2
        have r1 : IsINT (d.is * ni') := by
          rw [e1]
          have habs : |is * (rest.map fun d => d.2.1).prod * ni'| ≤ INT_MAX := by
            rw [abs_mul, abs_mul, abs_of_pos (show 0 < (rest.map fun d => d.2.1).prod by omega), abs_of_pos (show 0 < ni' by omega)]
            linarith [mul_comm ni' (rest.map fun d => d.2.1).prod, mul_assoc |is| ni' (rest.map fun d => d.2.1).prod, mul_right_comm |is| ni' (rest.map fun d => d.2.1).prod]
          rw [abs_le] at habs
          unfold IsINT INT_MIN; unfold INT_MAX at *; omega
        have r2 : IsINT (d.os * no') := by
          rw [e2]
          have habs : |os * (rest.map fun d => d.2.2).prod * no'| ≤ INT_MAX := by
            rw [abs_mul, abs_mul, abs_of_pos (show 0 < (rest.map fun d => d.2.2).prod by omega), abs_of_pos (show 0 < no' by omega)]
            linarith [mul_comm no' (rest.map fun d => d.2.2).prod, mul_assoc |os| no' (rest.map fun d => d.2.2).prod, mul_right_comm |os| no' (rest.map fun d => d.2.2).prod]
          rw [abs_le] at habs
          unfold IsINT INT_MIN; unfold INT_MAX at *; omega
        refine ⟨{ n := n, is := d.is * ni', os := d.os * no' } :: d :: ds', ?_, by simpa using h2, by simpa using h3, ?_, ?_⟩
        · rw [mktensorRowmajor, h1]
          simp only [Option.bind_eq_bind, Option.bind_some]
          rw [cmul_some r1]
          simp only [Option.bind_some]
          rw [cmul_some r2]
          rfl
        · intro d0 ds0 h0
          obtain ⟨rfl, _⟩ := List.cons.inj h0
          simp only [List.tail_cons, List.map_cons, List.prod_cons]
          rw [e1, e2]
          constructor <;> ring
        · intro idx hidx
          match idx, hidx with
          | x :: idx, hidx =>
            obtain ⟨g1, g2⟩ := h5 idx (by simpa using hidx)
            have hz1 : List.map Prod.fst (List.zip (((n', ni', no') :: rest).map fun d => d.2.1) idx) = ((n', ni', no') :: rest).map fun d => d.2.1 := by
              apply List.map_fst_zip; simp at hidx ⊢; omega
            have hz2 : List.map Prod.fst (List.zip (((n', ni', no') :: rest).map fun d => d.2.2) idx) = ((n', ni', no') :: rest).map fun d => d.2.2 := by
              apply List.map_fst_zip; simp at hidx ⊢; omega
            constructor
            · have : inOffset ({ n := n, is := d.is * ni', os := d.os * no' } :: d :: ds') (x :: idx) = d.is * ni' * x + inOffset (d :: ds') idx := by
                simp [inOffset]
              rw [this, g1, List.map_cons (l := (n', ni', no') :: rest), List.zip_cons_cons, List.foldl_cons, foldl_lin _ (0 * _ + x), hz1, e1]
              simp only [List.map_cons, List.prod_cons]
              ring
            · have : outOffset ({ n := n, is := d.is * ni', os := d.os * no' } :: d :: ds') (x :: idx) = d.os * no' * x + outOffset (d :: ds') idx := by
                simp [outOffset]
              rw [this, g2, List.map_cons (l := (n', ni', no') :: rest), List.zip_cons_cons, List.foldl_cons, foldl_lin _ (0 * _ + x), hz2, e2]
              simp only [List.map_cons, List.prod_cons]
              ring

/-- C39: for every rank, extents, physical dimensions (all ≥ 1) and strides for which the outermost stride is representable,
the tensor built by the basic/advanced interfaces has the given extents and places element `(i0,…,ik)` at `stride` times its
row-major index in the physical array, on the input and on the output side. -/
theorem C39_rowmajor (l : List (Int × Int × Int)) (is os : Int) (hpos : ∀ d ∈ l, 1 ≤ d.2.1 ∧ 1 ≤ d.2.2)
    (hi : |is| * (l.tail.map fun d => d.2.1).prod ≤ INT_MAX) (ho : |os| * (l.tail.map fun d => d.2.2).prod ≤ INT_MAX) :
    ∃ ds, mktensorRowmajor l is os = some ds ∧ ds.map (·.n) = l.map (·.1) ∧
      ∀ idx : List Int, idx.length = l.length →
        inOffset ds idx = is * rowMajorIndex ((l.map fun d => d.2.1).zip idx) ∧
        outOffset ds idx = os * rowMajorIndex ((l.map fun d => d.2.2).zip idx) := by
  obtain ⟨ds, h1, _, h3, _, h5⟩ := rowmajor_spec l is os hpos hi ho
  exact ⟨ds, h1, h3, fun idx hidx => by simpa [rowMajorIndex] using h5 idx hidx⟩

example : ∃ ds, mktensorRowmajor [(3, 3, 3), (5, 6, 5)] 2 4 = some ds ∧ inOffset ds [2, 4] = 2 * (2 * 6 + 4) := ⟨_, rfl, by decide⟩

/-- C39: sizes accepted by the advanced interface are exactly the positive ones (and a non-negative batch count). -/
theorem C39_kosher (n : List Int) (howmany : Int) : manyKosherp n howmany = true ↔ 0 ≤ howmany ∧ ∀ x ∈ n, 1 ≤ x := by
  unfold manyKosherp rowmajorKosherp
  simp only [Bool.and_eq_true, decide_eq_true_eq, List.all_eq_true, Bool.not_eq_true', decide_eq_false_iff_not, ge_iff_le, Int.not_le]
  rfl

/-- C39, real data: with default embeddings the last physical dimension is `2*(n/2+1)` reals on the real side of an in-place
transform, `n` reals out of place, and `n/2+1` complex numbers on the complex side; other dimensions are unpadded. -/
theorem C39_pad (n : List Int) (last : Int) (inplace : Bool) (hl : 1 ≤ last) :
    rdft2Pad (n ++ [last]) none inplace true = some (n ++ [last / 2 + 1]) ∧
    rdft2Pad (n ++ [last]) none inplace false = some (n ++ [if inplace then 2 * (last / 2 + 1) else last]) := by
  have ht : last.tdiv 2 = last / 2 := Int.tdiv_eq_ediv_of_nonneg (by omega)
  unfold rdft2Pad
  simp only [List.getLast?_append, List.getLast?_singleton, Option.some_or]
  constructor
  · simp [ht]
  · cases inplace
    · simp
    · simp [ht]; ring

/-- C39, real data in place: the padding makes rows of reals and rows of complex numbers start at the same address, for every
dimension but the last: real stride `1`, complex stride `2`, default embeddings. -/
theorem C39_pad_aligns (n : List Int) (last : Int) (hn : ∀ x ∈ n, 1 ≤ x) (hl : 1 ≤ last)
    (hov : 2 * ((n ++ [last / 2 + 1]).prod) ≤ INT_MAX) :
    ∃ e f ds, rdft2Pad (n ++ [last]) none true false = some e ∧ rdft2Pad (n ++ [last]) none true true = some f ∧
      mktensorRowmajor ((n ++ [last]).zip (e.zip f)) 1 2 = some ds ∧
      ∀ idx : List Int, idx.length = n.length → inOffset ds (idx ++ [0]) = outOffset ds (idx ++ [0]) := by
  obtain ⟨h1, h2⟩ := C39_pad n last true hl
  refine ⟨n ++ [2 * (last / 2 + 1)], n ++ [last / 2 + 1], ?_⟩
  have hz1 : ((n ++ [last]).zip ((n ++ [2 * (last / 2 + 1)]).zip (n ++ [last / 2 + 1]))).map (fun d => d.2.1) = n ++ [2 * (last / 2 + 1)] := by
    rw [show (fun d : Int × Int × Int => d.2.1) = Prod.fst ∘ Prod.snd from rfl, ← List.map_map, List.map_snd_zip (by simp), List.map_fst_zip (by simp)]
  have hz2 : ((n ++ [last]).zip ((n ++ [2 * (last / 2 + 1)]).zip (n ++ [last / 2 + 1]))).map (fun d => d.2.2) = n ++ [last / 2 + 1] := by
    rw [show (fun d : Int × Int × Int => d.2.2) = Prod.snd ∘ Prod.snd from rfl, ← List.map_map, List.map_snd_zip (by simp), List.map_snd_zip (by simp)]
  have hlast : 1 ≤ last / 2 + 1 := by omega
  have hge : ∀ x ∈ n ++ [last / 2 + 1], 1 ≤ x := by
    intro x hx
    rcases List.mem_append.1 hx with hx | hx
    · exact hn x hx
    · simp at hx; omega
  have hge2 : ∀ x ∈ n ++ [2 * (last / 2 + 1)], 1 ≤ x := by
    intro x hx
    rcases List.mem_append.1 hx with hx | hx
    · exact hn x hx
    · simp at hx; omega
  have htail : ∀ l : List Int, (∀ x ∈ l, 1 ≤ x) → l.tail.prod ≤ l.prod := by
    intro l hl
    cases l with
    | nil => simp
    | cons a l =>
      have := hl a (by simp)
      have := prod_pos l (fun x hx => hl x (by simp [hx]))
      simp only [List.tail_cons, List.prod_cons]; nlinarith
  obtain ⟨ds, g1, _, g3⟩ := C39_rowmajor ((n ++ [last]).zip ((n ++ [2 * (last / 2 + 1)]).zip (n ++ [last / 2 + 1]))) 1 2
    (by
      intro d hd
      refine ⟨hge2 _ (hz1 ▸ List.mem_map_of_mem (f := fun d : Int × Int × Int => d.2.1) hd), hge _ (hz2 ▸ List.mem_map_of_mem (f := fun d : Int × Int × Int => d.2.2) hd)⟩)
    (by
      rw [List.map_tail, hz1]
      have h3 := htail _ hge2
      have h4 : (n ++ [2 * (last / 2 + 1)]).prod = 2 * (n ++ [last / 2 + 1]).prod := by simp [List.prod_append]; ring
      simp only [abs_one, one_mul]; omega)
    (by
      rw [List.map_tail, hz2]
      have h3 := htail _ hge
      rw [abs_of_pos (by norm_num : (0:Int) < 2)]; omega)
  refine ⟨ds, by simpa using h2, h1, g1, ?_⟩
  intro idx hidx
  obtain ⟨a1, a2⟩ := g3 (idx ++ [0]) (by simp [hidx])
  rw [a1, a2, hz1, hz2]
  unfold rowMajorIndex
  rw [List.zip_append (by simp [hidx]), List.zip_append (by simp [hidx]), List.foldl_append, List.foldl_append]
  simp
  ring

end FFTW.Props
