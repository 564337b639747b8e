import Verif.Proofs.MpiBlock

/-!
# C37: MPI block distribution is a partition
-/

namespace FFTW.Props
open FFTW.MpiBlock

/-- index `j` of a dimension of size `n` distributed in blocks of `b` belongs to block `w`:
it lies in the `block(n,b,w)` elements starting at `w*b`. -/
def Owns (n b w j : Int) : Prop := ∃ len, block n b w = some len ∧ w * b ≤ j ∧ j < w * b + len

/-- C37, one dimension: for every size and block size (sum representable) every index belongs to exactly one of the
`num_blocks` blocks; every block has between 0 and `b` elements, and at least one if its number is below `num_blocks`. -/
theorem C37_partition_1d (n b : Int) (hn : 1 ≤ n) (hb : 1 ≤ b) (hov : n + b ≤ INT_MAX) :
    ∃ nb, numBlocks n b = some nb ∧
      (∀ j, 0 ≤ j → j < n → ∃! w, 0 ≤ w ∧ w < nb ∧ Owns n b w j) ∧
      (∀ w, 0 ≤ w → w < nb → ∃ len, block n b w = some len ∧ 1 ≤ len ∧ len ≤ b ∧ w * b + len ≤ n) ∧
      (∀ w, nb ≤ w → w * b ≤ INT_MAX → block n b w = some 0) := by
  have hok : DDim.Ok ⟨n, b⟩ := ⟨hn, hb, hov⟩
  have hs := nb_spec hok
  simp only at hs
  refine ⟨_, numBlocks_some hok, ?_, ?_, ?_⟩
  · intro j h0 h1
    have hi := index_block hok h0 h1
    refine ⟨j / b, ⟨hi.1, hi.2.1, _, block_some hok hi.1 (coord_mul hok hi.2.1), hi.2.2.1, hi.2.2.2⟩, ?_⟩
    rintro w ⟨hw0, hw1, len, hl, h2, h3⟩
    rw [block_some hok hw0 (coord_mul hok hw1)] at hl
    obtain rfl := Option.some.inj hl
    exact (index_block_unique hok h2 h3).1
  · intro w h0 h1
    refine ⟨_, block_some hok h0 (coord_mul hok h1), ?_⟩
    have : w * b ≤ ((DDim.nb ⟨n, b⟩) - 1) * b := Int.mul_le_mul_of_nonneg_right (by omega) (by omega)
    simp only
    omega
  · intro w h0 h1
    rw [block_some hok (by omega) h1]
    have : (DDim.nb ⟨n, b⟩) * b ≤ w * b := Int.mul_le_mul_of_nonneg_right (by omega) (by omega)
    simp only
    congr 1; omega

/-- C37: the default block size never needs more processes than there are. -/
theorem C37_default_block (n p : Int) (hn : 1 ≤ n) (hp : 1 ≤ p) (hov : n + p ≤ INT_MAX) (hov2 : 2 * n ≤ INT_MAX) :
    ∃ b, defaultBlock n p = some b ∧ 1 ≤ b ∧ numBlocksOk n b p = some true := by
  have hok : DDim.Ok ⟨n, p⟩ := ⟨hn, hp, hov⟩
  have hs := nb_spec hok
  simp only at hs
  have hok2 : DDim.Ok ⟨n, DDim.nb ⟨n, p⟩⟩ := ⟨hn, hs.1, by simp only; omega⟩
  refine ⟨_, numBlocks_some hok, hs.1, ?_⟩
  unfold numBlocksOk
  rw [numBlocks_some hok2]
  have hs2 := nb_spec hok2
  simp only at hs2
  simp only [Option.bind_eq_bind, Option.bind_some, pure, Option.some.injEq, decide_eq_true_eq, ge_iff_le]
  by_contra hc
  have : p * DDim.nb ⟨n, p⟩ ≤ (DDim.nb ⟨n, DDim.nb ⟨n, p⟩⟩ - 1) * DDim.nb ⟨n, p⟩ :=
    Int.mul_le_mul_of_nonneg_right (by omega) (by omega)
  have e : p * DDim.nb ⟨n, p⟩ = DDim.nb ⟨n, p⟩ * p := by ring
  omega

/-- index vector `js` belongs to process `w` of the multi-dimensional distribution `sz` -/
def OwnsVec (sz : List DDim) (w : Int) (js : List Int) : Prop :=
  ∃ cs, blockCoords sz w = some cs ∧ List.Forall₂ (fun (p : DDim × Int) j => Owns p.1.n p.1.b p.2 j) (sz.zip cs) js

/-- C37, any rank: every index vector of the array belongs to exactly one non-idle process. -/
theorem C37_partition (sz : List DDim) (hok : ∀ d ∈ sz, 1 ≤ d.n ∧ 1 ≤ d.b ∧ d.n + d.b ≤ INT_MAX)
    (hp : (sz.map fun d => (d.n + d.b - 1) / d.b).prod ≤ INT_MAX) :
    ∃ nt, numBlocksTotal sz = some nt ∧
      ∀ js, List.Forall₂ (fun (d : DDim) j => 0 ≤ j ∧ j < d.n) sz js → ∃! w, 0 ≤ w ∧ w < nt ∧ OwnsVec sz w js := by
  have hok' : ∀ d ∈ sz, d.Ok := hok
  have hp' : nbProd sz ≤ INT_MAX := hp
  refine ⟨_, numBlocksTotal_some hok' hp', ?_⟩
  intro js hjs
  -- the coordinates of the owner
  have hcs : ∃ cs, InRange sz cs ∧ List.Forall₂ (fun (p : DDim × Int) j => Owns p.1.n p.1.b p.2 j) (sz.zip cs) js := by
    clear hp hp' hok
    induction hjs with
    | nil => exact ⟨[], List.Forall₂.nil, List.Forall₂.nil⟩
    | @cons d j ds js hj h ih =>
      obtain ⟨cs, h1, h2⟩ := ih (fun d hd => hok' d (by simp [hd]))
      have hd := hok' d (by simp)
      have hi := index_block hd hj.1 hj.2
      exact ⟨j / d.b :: cs, List.Forall₂.cons ⟨hi.1, hi.2.1⟩ h1,
        List.Forall₂.cons ⟨_, block_some hd hi.1 (coord_mul hd hi.2.1), hi.2.2.1, hi.2.2.2⟩ h2⟩
  have huniq : ∀ cs cs', InRange sz cs → InRange sz cs' →
      List.Forall₂ (fun (p : DDim × Int) j => Owns p.1.n p.1.b p.2 j) (sz.zip cs) js →
      List.Forall₂ (fun (p : DDim × Int) j => Owns p.1.n p.1.b p.2 j) (sz.zip cs') js → cs = cs' := by
    clear hp hp' hok hcs
    induction hjs with
    | nil => intro cs cs' h h' _ _; cases h; cases h'; rfl
    | @cons d j ds js hj h ih =>
      intro cs cs' h1 h1' h2 h2'
      cases h1 with
      | @cons _ c _ cs hc h1 =>
        cases h1' with
        | @cons _ c' _ cs' hc' h1' =>
          simp only [List.zip_cons_cons] at h2 h2'
          cases h2 with
          | cons a h2 =>
            cases h2' with
            | cons a' h2' =>
              have hd := hok' d (by simp)
              obtain ⟨len, l1, l2, l3⟩ := a
              obtain ⟨len', l1', l2', l3'⟩ := a'
              simp only at l1 l2 l3 l1' l2' l3'
              rw [block_some hd hc.1 (coord_mul hd hc.2)] at l1
              rw [block_some hd hc'.1 (coord_mul hd hc'.2)] at l1'
              obtain rfl := Option.some.inj l1
              obtain rfl := Option.some.inj l1'
              rw [(index_block_unique hd l2 l3).1, (index_block_unique hd l2' l3').1,
                ih (fun d hd => hok' d (by simp [hd])) cs cs' h1 h1' h2 h2']
  obtain ⟨cs, h1, h2⟩ := hcs
  have hb := valRev_bounds (by simpa using hok') (inRange_reverse h1)
  rw [nbProd_reverse] at hb
  refine ⟨valRev sz.reverse cs.reverse, ⟨hb.1, hb.2, cs, blockCoords_val hok' hp' h1, h2⟩, ?_⟩
  rintro w ⟨hw0, hw1, cs', h1', h2'⟩
  obtain ⟨cs'', h3, h4, h5⟩ := blockCoords_some hok' hp' hw0 hw1
  rw [h1'] at h3
  obtain rfl := Option.some.inj h3
  rw [← h5, huniq cs' cs h4 h1 h2' h2]

-- a 5 × 7 array in 2 × 3 blocks on 3 * 3 = 9 processes
example : ∃ nt, numBlocksTotal [⟨5, 2⟩, ⟨7, 3⟩] = some nt ∧ nt = 9 := ⟨9, by decide, rfl⟩

end FFTW.Props
