import Verif.Proofs.MpiRecurse
import Verif.Proofs.Problem

/-! `mpi/transpose-recurse.c`: the radix, and the local permutation -/

namespace FFTW.Mpi
open Tensor Spec RdftS

theorem divisorFrom_dvd {np : ℕ} : ∀ fuel r, divisorFrom np fuel r ≠ 0 → divisorFrom np fuel r ∣ np := by
  intro fuel
  induction fuel with
  | zero => intro r h; exact absurd rfl h
  | succ k ih =>
    intro r h
    rw [divisorFrom] at h ⊢
    split at h
    · rename_i hc
      rw [if_pos hc]
      exact ih _ h
    · rename_i hc
      rw [if_neg hc]
      exact Nat.dvd_of_mod_eq_zero (by omega)

theorem radix_dvd (rx : Radix) {np : ℕ} (h : rx.of np ≠ 0) : rx.of np ∣ np := by
  cases rx with
  | sqrt => exact divisorFrom_dvd _ _ h
  | first =>
    have h : radixFirst np ≠ 0 := h
    show radixFirst np ∣ np
    unfold radixFirst at h ⊢
    simp only at h ⊢
    split at h
    · exact absurd rfl h
    · rename_i hc
      rw [if_neg hc]
      cases he : Primes.firstDivisor np with
      | none => rw [he] at h; simp at h
      | some e =>
        rw [he] at h
        simp only [Option.getD_some] at h ⊢
        have := Primes.firstDivisor_dvd he
        have e1 : e = (e.toNat : ℤ) := by omega
        rw [e1] at this
        exact_mod_cast this

/-- where column `j` goes -/
def sg (r m tb j : ℕ) : ℕ := (j / tb % r * m + j / tb / r) * tb + j % tb

theorem sg_spec {r m tb j : ℕ} (hr : 0 < r) (htb : 0 < tb) (hj : j < tb * (r * m)) :
    j / tb % r < r ∧ j / tb / r < m ∧ j % tb < tb ∧ j = (j / tb / r * r + j / tb % r) * tb + j % tb := by
  have h1 : j / tb < r * m := by rw [Nat.div_lt_iff_lt_mul htb, Nat.mul_comm]; exact hj
  refine ⟨Nat.mod_lt _ hr, ?_, Nat.mod_lt _ htb, ?_⟩
  · rw [Nat.div_lt_iff_lt_mul hr, Nat.mul_comm]; exact h1
  · have e1 : j / tb / r * r + j / tb % r = j / tb := by rw [Nat.mul_comm]; exact Nat.div_add_mod _ _
    rw [e1, Nat.mul_comm]; exact (Nat.div_add_mod _ _).symm

variable [CLib]

theorem sg_lt {r m tb j : ℕ} (hr : 0 < r) (htb : 0 < tb) (hj : j < tb * (r * m)) : sg r m tb j < tb * (r * m) := by
  obtain ⟨h1, h2, h3, _⟩ := sg_spec hr htb hj
  have := lin_lt (lin_lt h1 h2) h3
  unfold sg
  rw [Nat.mul_comm tb]; exact this

theorem sg_div {r m tb j : ℕ} (hr : 0 < r) (htb : 0 < tb) (hj : j < tb * (r * m)) :
    sg r m tb j / (m * tb) = j / tb % r ∧ sg r m tb j % (m * tb) = j / tb / r * tb + j % tb := by
  obtain ⟨h1, h2, h3, _⟩ := sg_spec hr htb hj
  have hlt : j / tb / r * tb + j % tb < m * tb := lin_lt h2 h3
  have e : sg r m tb j = j / tb % r * (m * tb) + (j / tb / r * tb + j % tb) := by unfold sg; ring
  rw [e]
  constructor
  · rw [Nat.add_comm, Nat.add_mul_div_right _ _ (by omega), Nat.div_eq_of_lt hlt]; omega
  · rw [Nat.add_comm, Nat.add_mul_mod_self_right, Nat.mod_eq_of_lt hlt]

variable {p : TransP}

theorem rec1_copy {r m : ℕ} (hl : p.comm.length = r * m) (hny : p.tblock * (r * m) = p.ny) (b : Bool) (me : ℕ) :
    Copy (recurse1Dims p r m b me) (p.b me * p.ny * p.vn) (p.b me * p.ny * p.vn) := by
  unfold recurse1Dims
  simp only
  split
  · constructor
    · refine (((Nest.one (p.vn * p.b me * p.tblock)).mul (n := r) (s := p.vn * p.b me * p.tblock) le_rfl).mul (n := m) (s := r * (p.vn * p.b me * p.tblock)) le_rfl).fits
        (List.Perm.refl _) ?_
      rw [← hny]; exact le_of_eq (by ring)
    · refine (((Nest.one (p.vn * p.b me * p.tblock)).mul (n := m) (s := p.vn * p.b me * p.tblock) le_rfl).mul (n := r) (s := m * (p.vn * p.b me * p.tblock)) le_rfl).fits
        (List.Perm.swap _ _ _) ?_
      rw [← hny]; exact le_of_eq (by ring)
  · split
    · constructor
      · refine (((((Nest.one p.vn).mul (n := p.tblock) (s := p.vn) le_rfl).mul (n := r) (s := p.tblock * p.vn) le_rfl).mul (n := m) (s := r * p.tblock * p.vn)
          (le_of_eq (by ring))).mul (n := p.b me) (s := m * r * p.tblock * p.vn) (le_of_eq (by ring))).fits (List.Perm.refl _) ?_
        rw [← hny]; exact le_of_eq (by ring)
      · refine (((((Nest.one p.vn).mul (n := p.b me) (s := p.vn) le_rfl).mul (n := p.tblock) (s := p.b me * p.vn) le_rfl).mul (n := m) (s := p.tblock * p.b me * p.vn)
          (le_of_eq (by ring))).mul (n := r) (s := m * p.tblock * p.b me * p.vn) (le_of_eq (by ring))).fits ?_ ?_
        · show List.Perm [_, _, _, _, _] [_, _, _, _, _]
          rw [List.perm_iff_count]
          intro a
          simp only [List.count_cons, List.count_nil]
          omega
        · rw [← hny]; exact le_of_eq (by ring)
    · rw [hl]
      constructor
      · refine ((((Nest.one (p.vn * p.tblock)).mul (n := r) (s := p.vn * p.tblock) le_rfl).mul (n := m) (s := r * (p.vn * p.tblock)) le_rfl).mul
          (n := p.b me) (s := r * m * (p.vn * p.tblock)) (le_of_eq (by ring))).fits ?_ ?_
        · show List.Perm [_, _, _, _] [_, _, _, _]
          rw [List.perm_iff_count]
          intro a
          simp only [List.count_cons, List.count_nil]
          omega
        · rw [← hny]; exact le_of_eq (by ring)
      · refine ((((Nest.one (p.vn * p.tblock)).mul (n := m) (s := p.vn * p.tblock) le_rfl).mul (n := r) (s := m * (p.vn * p.tblock)) le_rfl).mul
          (n := p.b me) (s := r * m * (p.vn * p.tblock)) (le_of_eq (by ring))).fits ?_ ?_
        · show List.Perm [_, _, _, _] [_, _, _, _]
          rw [List.perm_iff_count]
          intro a
          simp only [List.count_cons, List.count_nil]
          omega
        · rw [← hny]; exact le_of_eq (by ring)

/-- layout between the local permutation and the first transposition -/
def recOff (p : TransP) (b : Bool) (i j v : ℕ) : ℕ :=
  if p.flags.transposedIn || !b then colOff p.nx p.vn p.block i j v else rowOff p.ny p.vn p.block i j v

theorem rec1_pair {r m : ℕ} (hr : 0 < r) (hb : 0 < p.block) (htb : 0 < p.tblock) (hl : p.comm.length = r * m) (hny : p.tblock * (r * m) = p.ny) (b : Bool) {i j v : ℕ}
    (hi : i < p.nx) (hj : j < p.ny) (hv : v < p.vn) :
    ((p.inOff i j v : ℤ), (recOff p b i (sg r m p.tblock j) v : ℤ)) ∈ pairs (some (recurse1Dims p r m b (i / p.block))) := by
  obtain ⟨h1, h2, h3, h4⟩ := sg_spec hr htb (hny ▸ hj)
  have hx : i % p.block < p.b (i / p.block) := block_mod hi hb
  have hB : Mpi.block p.nx p.block (i / p.block) = p.b (i / p.block) := rfl
  unfold recurse1Dims
  simp only
  generalize ejr : j / p.tblock % r = jr at h1 h4
  generalize ejm : j / p.tblock / r = jm at h2 h4
  generalize ejl : j % p.tblock = jl at h3 h4
  have hsg : sg r m p.tblock j = (jr * m + jm) * p.tblock + jl := by unfold sg; rw [ejr, ejm, ejl]
  rw [hsg]
  cases ht : p.flags.transposedIn with
  | true =>
    rw [if_pos rfl]
    have hu : (jl * p.b (i / p.block) + i % p.block) * p.vn + v < p.vn * p.b (i / p.block) * p.tblock := by
      have := lin_lt (lin_lt h3 (block_mod hi hb : i % p.block < p.b (i / p.block))) hv
      rw [hB] at this
      exact lt_of_lt_of_eq this (by ring)
    have := mem_pairsC (d := ⟨m, (r * (p.vn * p.b (i / p.block) * p.tblock) : ℕ), (p.vn * p.b (i / p.block) * p.tblock : ℕ)⟩) (j := jm) h2
      (mem_pairsC (d := ⟨r, (p.vn * p.b (i / p.block) * p.tblock : ℕ), (m * (p.vn * p.b (i / p.block) * p.tblock) : ℕ)⟩) (j := jr) h1
        (mem_pairs1 (d := ⟨p.vn * p.b (i / p.block) * p.tblock, 1, 1⟩) hu))
    refine mem_cast this ?_ ?_
    · unfold TransP.inOff
      rw [ht, if_pos rfl]
      unfold colOff
      rw [hB, h4]
      simp only; push_cast; ring
    · unfold recOff
      rw [ht, if_pos (by simp)]
      unfold colOff
      rw [hB]
      simp only; push_cast; ring
  | false =>
    rw [if_neg (by decide)]
    have hx' : i % p.block < p.b (i / p.block) := block_mod hi hb
    cases b with
    | false =>
      rw [if_pos (by decide)]
      have := mem_pairsC (d := ⟨p.b (i / p.block), (m * r * p.tblock * p.vn : ℕ), p.vn⟩) (j := i % p.block) hx'
        (mem_pairsC (d := ⟨m, (r * p.tblock * p.vn : ℕ), (p.tblock * p.b (i / p.block) * p.vn : ℕ)⟩) (j := jm) h2
        (mem_pairsC (d := ⟨r, (p.tblock * p.vn : ℕ), (m * p.tblock * p.b (i / p.block) * p.vn : ℕ)⟩) (j := jr) h1
        (mem_pairsC (d := ⟨p.tblock, p.vn, (p.b (i / p.block) * p.vn : ℕ)⟩) (j := jl) h3
        (mem_pairs1 (d := ⟨p.vn, 1, 1⟩) hv))))
      refine mem_cast this ?_ ?_
      · unfold TransP.inOff
        rw [ht, if_neg (by decide)]
        unfold rowOff
        rw [← hny, h4]
        simp only; push_cast; ring
      · unfold recOff
        rw [ht, if_pos (by decide)]
        unfold colOff
        rw [hB]
        simp only; push_cast; ring
    | true =>
      rw [if_neg (by decide), hl]
      have hu : jl * p.vn + v < p.vn * p.tblock := by
        have := lin_lt h3 hv
        rwa [Nat.mul_comm p.tblock] at this
      have := mem_pairsC (d := ⟨m, (r * (p.vn * p.tblock) : ℕ), (p.vn * p.tblock : ℕ)⟩) (j := jm) h2
        (mem_pairsC (d := ⟨r, (p.vn * p.tblock : ℕ), (m * (p.vn * p.tblock) : ℕ)⟩) (j := jr) h1
        (mem_pairsC (d := ⟨p.vn * p.tblock, 1, 1⟩) (j := jl * p.vn + v) hu
        (mem_pairs1 (d := ⟨p.b (i / p.block), (r * m * (p.vn * p.tblock) : ℕ), (r * m * (p.vn * p.tblock) : ℕ)⟩) hx')))
      refine mem_cast this ?_ ?_
      · unfold TransP.inOff
        rw [ht, if_neg (by decide)]
        unfold rowOff
        rw [← hny, h4]
        simp only; push_cast; ring
      · unfold recOff
        rw [ht, if_neg (by decide)]
        unfold rowOff
        rw [← hny]
        simp only; push_cast; ring

end FFTW.Mpi
