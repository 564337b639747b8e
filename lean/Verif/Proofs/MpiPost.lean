import Verif.Proofs.MpiLocal

/-! the local transpositions before and after the exchange -/

namespace FFTW.Mpi
open Tensor Spec RdftS

theorem Nest.one (n : ℕ) : Nest [(n, 1)] n := .cons (s := 1) .nil le_rfl (fun i hi => by omega) (by norm_num)

theorem Nest.mul {l : List (ℕ × ℤ)} {N n s : ℕ} (h : Nest l N) (hs : N ≤ s) : Nest ((n, (s : ℤ)) :: l) (n * s) :=
  .cons h hs (fun i hi => by
    have : (i + 1) * s ≤ n * s := Nat.mul_le_mul_right _ hi
    have e : (i + 1) * s = i * s + s := by ring
    omega) rfl

theorem mem_pairs1 {d : Dim} {j : ℕ} (h : j < d.n) : ((j : ℤ) * d.is, (j : ℤ) * d.os) ∈ pairs (some [d]) :=
  mem_pairs_cons.2 ⟨j, h, (0, 0), by simp [pairs, offs], by simp⟩
theorem mem_pairsC {d : Dim} {l : List Dim} {j : ℕ} {a b : ℤ} (h : j < d.n) (h2 : (a, b) ∈ pairs (some l)) :
    ((j : ℤ) * d.is + a, (j : ℤ) * d.os + b) ∈ pairs (some (d :: l)) := mem_pairs_cons.2 ⟨j, h, (a, b), h2, rfl⟩

theorem mem_cast {m : Multiset (ℤ × ℤ)} {a b a' b' : ℤ} (h : (a, b) ∈ m) (e1 : a = a') (e2 : b = b') : (a', b') ∈ m := by rw [← e1, ← e2]; exact h

theorem pairs_zero {l : List Dim} (h : ∃ d ∈ l, d.n = 0) : pairs (some l) = 0 := by
  rw [Multiset.eq_zero_iff_forall_notMem]
  intro ab hab
  induction l generalizing ab with
  | nil => simp at h
  | cons d l ih =>
    obtain ⟨j, hj, q, hq, _⟩ := mem_pairs_cons.1 hab
    obtain ⟨e, he, h0⟩ := h
    rcases List.mem_cons.1 he with rfl | he
    · omega
    · exact ih ⟨e, he, h0⟩ q hq

/-- the block of a process -/
theorem block_eq (n b w : ℕ) : block n b w = min b (n - w * b) := by
  unfold block
  split
  · have : n - w * b = 0 := by omega
    rw [this]; simp
  · split <;> omega

theorem block_mod {n b i : ℕ} (h : i < n) (hb : 0 < b) : i % b < block n b (i / b) := by
  have h1 := Nat.mod_lt i hb
  have h2 := Nat.div_add_mod i b
  have e : i / b * b = b * (i / b) := Nat.mul_comm _ _
  rw [block_eq]
  omega

theorem blockLt {n b i k : ℕ} (h : i < n) (hb : 0 < b) (hk : n ≤ k * b) : i / b < k :=
  (Nat.div_lt_iff_lt_mul hb).2 (by omega)

theorem block_le (n b w : ℕ) : block n b w ≤ b := by rw [block_eq]; omega

theorem block_global {n b w x : ℕ} (h : x < block n b w) : w * b + x < n ∧ (w * b + x) / b = w ∧ (w * b + x) % b = x := by
  rw [block_eq] at h
  have hb : x < b := by omega
  refine ⟨by omega, ?_, ?_⟩
  · rw [Nat.add_comm, Nat.add_mul_div_right _ _ (by omega), Nat.div_eq_of_lt hb]; omega
  · rw [Nat.add_comm, Nat.add_mul_mod_self_right, Nat.mod_eq_of_lt hb]

variable [CLib]
variable {p : TransP}

theorem pre_copy (me : ℕ) (_hv : 0 < p.vn) : Copy (preDims p me) (p.b me * p.ny * p.vn) (p.b me * p.ny * p.vn) := by
  constructor
  · refine (((Nest.one p.vn).mul (n := p.ny) (s := p.vn) le_rfl).mul (n := p.b me) (s := p.ny * p.vn) (by omega)).fits (List.Perm.refl _) ?_
    exact le_of_eq (by ring)
  · refine (((Nest.one p.vn).mul (n := p.b me) (s := p.vn) le_rfl).mul (n := p.ny) (s := p.b me * p.vn) le_rfl).fits (List.Perm.swap _ _ _) ?_
    exact le_of_eq (by ring)

theorem pre_pair {me xl j v : ℕ} (hx : xl < p.b me) (hj : j < p.ny) (hv : v < p.vn) :
    ((((xl * p.ny + j) * p.vn + v : ℕ) : ℤ), (((j * p.b me + xl) * p.vn + v : ℕ) : ℤ)) ∈ pairs (some (preDims p me)) := by
  have := mem_pairsC (d := ⟨p.b me, (p.ny * p.vn : ℕ), p.vn⟩) (j := xl) hx
    (mem_pairsC (d := ⟨p.ny, p.vn, (p.b me * p.vn : ℕ)⟩) (j := j) hj (mem_pairs1 (d := ⟨p.vn, 1, 1⟩) hv))
  refine mem_cast this ?_ ?_
  · simp only; push_cast; ring
  · simp only; push_cast; ring

/-- sizes of the second local transposition -/
theorem nx_eq (p : TransP) : p.nx = p.nxb * p.block + p.nxr := by
  unfold TransP.nxr TransP.nxb
  have := Nat.div_mul_le_self p.nx p.block
  omega

theorem nxr_lt (hb : 0 < p.block) : p.nxr < p.block := by
  have h1 := Nat.mod_lt p.nx hb
  have h2 := Nat.div_add_mod p.nx p.block
  have e : p.nx / p.block * p.block = p.block * (p.nx / p.block) := Nat.mul_comm _ _
  unfold TransP.nxr TransP.nxb
  omega

/-- output size of a process -/
def TransP.nout (p : TransP) (me : ℕ) : ℕ := p.nx * p.bt me * p.vn

theorem nout_eq (me : ℕ) : p.nout me = restIoff p me + p.bt me * p.nxr * p.vn := by
  unfold TransP.nout restIoff
  rw [nx_eq p]; ring

theorem cld2_copy (d : Bool) (me : ℕ) :
    Copy (cld2Dims p d me) (restIoff p me) (if d then p.nout me else restIoff p me) := by
  unfold cld2Dims
  cases d with
  | true =>
    simp only [if_true]
    constructor
    · refine (((Nest.one (p.block * p.vn)).mul (n := p.bt me) (s := p.block * p.vn) le_rfl).mul (n := p.nxb) (s := p.bt me * (p.block * p.vn)) le_rfl).fits
        (List.Perm.refl _) ?_
      unfold restIoff; exact le_of_eq (by ring)
    · have hle : p.nxb * (p.block * p.vn) ≤ p.nx * p.vn := by
        rw [← Nat.mul_assoc]
        exact Nat.mul_le_mul_right _ (by have := nx_eq p; omega)
      refine (((Nest.one (p.block * p.vn)).mul (n := p.nxb) (s := p.block * p.vn) le_rfl).mul (n := p.bt me) (s := p.nx * p.vn) hle).fits
        (List.Perm.swap _ _ _) ?_
      unfold TransP.nout; exact le_of_eq (by ring)
  | false =>
    simp only [Bool.false_eq_true, if_false]
    constructor
    · refine ((((Nest.one p.vn).mul (n := p.block) (s := p.vn) le_rfl).mul (n := p.bt me) (s := p.block * p.vn) le_rfl).mul
        (n := p.nxb) (s := p.bt me * p.block * p.vn) (le_of_eq (by ring))).fits (List.Perm.refl _) ?_
      unfold restIoff; exact le_of_eq (by ring)
    · refine ((((Nest.one p.vn).mul (n := p.bt me) (s := p.vn) le_rfl).mul (n := p.block) (s := p.bt me * p.vn) le_rfl).mul
        (n := p.nxb) (s := p.bt me * p.block * p.vn) (le_of_eq (by ring))).fits ((List.Perm.swap _ _ _).cons _) ?_
      unfold restIoff; exact le_of_eq (by ring)

theorem cld2_pair_true {me q yl xl v : ℕ} (hq : q < p.nxb) (hy : yl < p.bt me) (hx : xl < p.block) (hv : v < p.vn) :
    (((q * (p.block * p.bt me) * p.vn + ((yl * p.block + xl) * p.vn + v) : ℕ) : ℤ), (((yl * p.nx + (q * p.block + xl)) * p.vn + v : ℕ) : ℤ)) ∈
      pairs (some (cld2Dims p true me)) := by
  have ht : xl * p.vn + v < p.block * p.vn := by
    have : (xl + 1) * p.vn ≤ p.block * p.vn := Nat.mul_le_mul_right _ hx
    have e : (xl + 1) * p.vn = xl * p.vn + p.vn := by ring
    omega
  have := mem_pairsC (d := ⟨p.nxb, (p.bt me * (p.block * p.vn) : ℕ), (p.block * p.vn : ℕ)⟩) (j := q) hq
    (mem_pairsC (d := ⟨p.bt me, (p.block * p.vn : ℕ), (p.nx * p.vn : ℕ)⟩) (j := yl) hy (mem_pairs1 (d := ⟨p.block * p.vn, 1, 1⟩) ht))
  refine mem_cast this ?_ ?_
  · simp only; push_cast; ring
  · simp only; push_cast; ring

theorem cld2_pair_false {me q yl xl v : ℕ} (hq : q < p.nxb) (hy : yl < p.bt me) (hx : xl < p.block) (hv : v < p.vn) :
    (((q * (p.block * p.bt me) * p.vn + ((yl * p.block + xl) * p.vn + v) : ℕ) : ℤ), ((((q * p.block + xl) * p.bt me + yl) * p.vn + v : ℕ) : ℤ)) ∈
      pairs (some (cld2Dims p false me)) := by
  have := mem_pairsC (d := ⟨p.nxb, (p.bt me * p.block * p.vn : ℕ), (p.bt me * p.block * p.vn : ℕ)⟩) (j := q) hq
    (mem_pairsC (d := ⟨p.bt me, (p.block * p.vn : ℕ), p.vn⟩) (j := yl) hy
      (mem_pairsC (d := ⟨p.block, p.vn, (p.bt me * p.vn : ℕ)⟩) (j := xl) hx (mem_pairs1 (d := ⟨p.vn, 1, 1⟩) hv)))
  refine mem_cast this ?_ ?_
  · simp only; push_cast; ring
  · simp only; push_cast; ring

theorem rest_copy (d : Bool) (me : ℕ) :
    Copy (restDims p d me) (p.nout me - restIoff p me) (p.nout me - restOoff p d me) := by
  unfold restDims restOoff
  cases d with
  | true =>
    simp only [if_true]
    constructor
    · refine ((Nest.one (p.nxr * p.vn)).mul (n := p.bt me) (s := p.nxr * p.vn) le_rfl).fits (List.Perm.refl _) ?_
      rw [nout_eq]
      have : p.bt me * (p.nxr * p.vn) = p.bt me * p.nxr * p.vn := by ring
      omega
    · refine (Nest.cons (M := p.nout me - p.nxb * (p.block * p.vn)) (s := p.nx * p.vn) (Nest.one (p.nxr * p.vn)) ?_ ?_ rfl).fits (List.Perm.refl _) le_rfl
      · exact Nat.mul_le_mul_right _ (by have := nx_eq p; omega)
      · intro i hi
        have h1 : (i + 1) * (p.nx * p.vn) ≤ p.bt me * (p.nx * p.vn) := Nat.mul_le_mul_right _ hi
        have h2 : p.bt me * (p.nx * p.vn) = p.nout me := by unfold TransP.nout; ring
        have h3 : (i + 1) * (p.nx * p.vn) = i * (p.nx * p.vn) + p.nxr * p.vn + p.nxb * (p.block * p.vn) := by rw [nx_eq p]; ring
        omega
  | false =>
    simp only [Bool.false_eq_true, if_false]
    have hN : p.nout me - p.nxb * p.bt me * (p.block * p.vn) = p.bt me * (p.nxr * p.vn) := by
      rw [nout_eq]; unfold restIoff
      have : p.bt me * (p.nxr * p.vn) = p.bt me * p.nxr * p.vn := by ring
      omega
    constructor
    · refine (((Nest.one p.vn).mul (n := p.nxr) (s := p.vn) le_rfl).mul (n := p.bt me) (s := p.nxr * p.vn) le_rfl).fits (List.Perm.refl _) ?_
      exact le_of_eq hN.symm
    · refine (((Nest.one p.vn).mul (n := p.bt me) (s := p.vn) le_rfl).mul (n := p.nxr) (s := p.bt me * p.vn) le_rfl).fits (List.Perm.swap _ _ _) ?_
      rw [hN]; exact le_of_eq (by ring)

theorem rest_pair_true {me yl xl v : ℕ} (hy : yl < p.bt me) (hx : xl < p.nxr) (hv : v < p.vn) :
    ((((yl * p.nxr + xl) * p.vn + v : ℕ) : ℤ), (((yl * p.nx + xl) * p.vn + v : ℕ) : ℤ)) ∈ pairs (some (restDims p true me)) := by
  have ht : xl * p.vn + v < p.nxr * p.vn := by
    have : (xl + 1) * p.vn ≤ p.nxr * p.vn := Nat.mul_le_mul_right _ hx
    have e : (xl + 1) * p.vn = xl * p.vn + p.vn := by ring
    omega
  have := mem_pairsC (d := ⟨p.bt me, (p.nxr * p.vn : ℕ), (p.nx * p.vn : ℕ)⟩) (j := yl) hy (mem_pairs1 (d := ⟨p.nxr * p.vn, 1, 1⟩) ht)
  refine mem_cast this ?_ ?_
  · simp only; push_cast; ring
  · simp only; push_cast; ring

theorem rest_pair_false {me yl xl v : ℕ} (hy : yl < p.bt me) (hx : xl < p.nxr) (hv : v < p.vn) :
    ((((yl * p.nxr + xl) * p.vn + v : ℕ) : ℤ), (((xl * p.bt me + yl) * p.vn + v : ℕ) : ℤ)) ∈ pairs (some (restDims p false me)) := by
  have := mem_pairsC (d := ⟨p.bt me, (p.nxr * p.vn : ℕ), p.vn⟩) (j := yl) hy
    (mem_pairsC (d := ⟨p.nxr, p.vn, (p.bt me * p.vn : ℕ)⟩) (j := xl) hx (mem_pairs1 (d := ⟨p.vn, 1, 1⟩) hv))
  refine mem_cast this ?_ ?_
  · simp only; push_cast; ring
  · simp only; push_cast; ring

theorem cld3_copy (me : ℕ) : Copy (cld3Dims p me) (p.nout me) (p.nout me) := by
  constructor
  · refine (((Nest.one p.vn).mul (n := p.bt me) (s := p.vn) le_rfl).mul (n := p.nx) (s := p.bt me * p.vn) le_rfl).fits (List.Perm.refl _) ?_
    unfold TransP.nout; exact le_of_eq (by ring)
  · refine (((Nest.one p.vn).mul (n := p.nx) (s := p.vn) le_rfl).mul (n := p.bt me) (s := p.nx * p.vn) le_rfl).fits (List.Perm.swap _ _ _) ?_
    unfold TransP.nout; exact le_of_eq (by ring)

theorem cld3_pair {me i yl v : ℕ} (hi : i < p.nx) (hy : yl < p.bt me) (hv : v < p.vn) :
    ((((i * p.bt me + yl) * p.vn + v : ℕ) : ℤ), (((yl * p.nx + i) * p.vn + v : ℕ) : ℤ)) ∈ pairs (some (cld3Dims p me)) := by
  have := mem_pairsC (d := ⟨p.nx, (p.bt me * p.vn : ℕ), p.vn⟩) (j := i) hi
    (mem_pairsC (d := ⟨p.bt me, p.vn, (p.nx * p.vn : ℕ)⟩) (j := yl) hy (mem_pairs1 (d := ⟨p.vn, 1, 1⟩) hv))
  refine mem_cast this ?_ ?_
  · simp only; push_cast; ring
  · simp only; push_cast; ring

end FFTW.Mpi
