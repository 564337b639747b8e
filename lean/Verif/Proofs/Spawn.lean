import Verif.Model.Spawn
import Mathlib.Tactic.Ring
import Mathlib.Tactic.Linarith
import Mathlib.Data.List.Range

namespace FFTW.Spawn

theorem ck32_some {x : Int} (h : -2147483648 ≤ x) (h' : x < 2147483648) : ck32 x = some x := by
  unfold ck32; rw [if_pos (by constructor <;> omega)]

/-- the iterations `proc` runs for one block -/
def SpawnData.iters (d : SpawnData) : List Int := (List.range (d.max - d.min).toNat).map fun k : ℕ => d.min + (k : Int)

theorem blocks_some (loopmax bs nthr : Int) (hb : 0 < bs) (hlo : (nthr - 1) * bs < loopmax) (hhi : loopmax ≤ nthr * bs)
    (hov : loopmax + bs ≤ 2147483648) :
    ∀ (k : ℕ) (i : Int), 0 ≤ i → i ≤ nthr → (nthr - i).toNat = k →
    ∃ ds, blocks loopmax bs nthr i = some ds ∧ (ds.length : Int) = nthr - i ∧
      (ds.flatMap SpawnData.iters = (List.range (loopmax - i * bs).toNat).map fun k : ℕ => i * bs + (k : Int)) ∧
      (∀ d ∈ ds, d.min < d.max ∧ d.max - d.min ≤ bs ∧ 0 ≤ d.min ∧ d.max ≤ loopmax) ∧
      (∀ j : ℕ, ∀ h : j < ds.length, (ds[j]).thrNum = i + j ∧ (ds[j]).min = (i + j) * bs) := by
  intro k
  induction k with
  | zero =>
    intro i hi0 hi hk
    have : i = nthr := by omega
    subst this
    refine ⟨[], ?_, by simp, ?_, by simp, by simp⟩
    · rw [blocks, if_neg (by omega)]; rfl
    · have : (loopmax - i * bs).toNat = 0 := by omega
      simp [this]
  | succ k ih =>
    intro i hi0 hi hk
    have hlt : i < nthr := by omega
    obtain ⟨ds, h1, h2, h3, h4, h5⟩ := ih (i + 1) (by omega) (by omega) (by omega)
    have hmul : i * bs ≤ (nthr - 1) * bs := Int.mul_le_mul_of_nonneg_right (by omega) hb.le
    have hmul0 : 0 ≤ i * bs := Int.mul_nonneg hi0 hb.le
    have hsucc : (i + 1) * bs = i * bs + bs := by ring
    have hblk : blockOf loopmax bs i = some { min := i * bs, max := if i * bs + bs > loopmax then loopmax else i * bs + bs, thrNum := i } := by
      unfold blockOf
      rw [ck32_some (by omega) (by omega)]
      simp only [Option.bind_eq_bind, Option.bind_some]
      rw [ck32_some (by omega) (by omega)]
      rfl
    refine ⟨_, by rw [blocks, if_pos hlt, hblk, h1]; rfl, ?_, ?_, ?_, ?_⟩
    · simp only [List.length_cons]; push_cast; omega
    · rw [List.flatMap_cons, h3]
      simp only [SpawnData.iters]
      by_cases hgt : i * bs + bs > loopmax
      · have e1 : (loopmax - (i + 1) * bs).toNat = 0 := by omega
        rw [if_pos hgt, e1]; simp
      · rw [if_neg hgt]
        have e1 : (i * bs + bs - i * bs).toNat = bs.toNat := by omega
        have e2 : (loopmax - i * bs).toNat = bs.toNat + (loopmax - (i + 1) * bs).toNat := by omega
        rw [e1, e2, List.range_add, List.map_append, List.map_map]
        congr 1
        apply List.map_congr_left
        intro x _
        simp only [Function.comp]
        push_cast
        rw [Int.toNat_of_nonneg hb.le]; linarith
    · intro d hd
      rcases List.mem_cons.1 hd with rfl | hd
      · simp only []
        split <;> (refine ⟨?_, ?_, ?_, ?_⟩ <;> omega)
      · exact h4 d hd
    · intro j hj
      match j with
      | 0 => simp
      | j + 1 =>
        have := h5 j (by simpa using hj)
        simp only [List.getElem_cons_succ]
        rw [this.1, this.2]
        push_cast
        constructor <;> ring

theorem spawnLoop_some (loopmax nthr : Int) (hl : 0 < loopmax) (hn : 0 < nthr) (h2 : 2 * loopmax ≤ 2147483647) (h3 : loopmax + nthr ≤ 2147483647) :
    ∃ (bs n : Int) (ds : List SpawnData), spawnLoop loopmax nthr = some ds ∧ 0 < bs ∧ bs * nthr < loopmax + nthr ∧ loopmax ≤ bs * nthr ∧
      (ds.length : Int) = n ∧ n ≤ nthr ∧ (n - 1) * bs < loopmax ∧
      (ds.flatMap SpawnData.iters = (List.range loopmax.toNat).map fun k : ℕ => (k : Int)) ∧
      (∀ d ∈ ds, d.min < d.max ∧ d.max - d.min ≤ bs ∧ 0 ≤ d.min ∧ d.max ≤ loopmax) ∧
      (∀ j : ℕ, ∀ h : j < ds.length, (ds[j]).thrNum = j) := by
  set bs := (loopmax + nthr - 1) / nthr with hbs
  have hdm : nthr * bs + (loopmax + nthr - 1) % nthr = loopmax + nthr - 1 := Int.mul_ediv_add_emod _ _
  have hm0 := Int.emod_nonneg (loopmax + nthr - 1) (show nthr ≠ 0 by omega)
  have hm1 := Int.emod_lt_of_pos (loopmax + nthr - 1) hn
  have hbs1 : 0 < bs := by
    by_contra hc
    have : nthr * bs ≤ 0 := Int.mul_nonpos_of_nonneg_of_nonpos hn.le (by omega)
    omega
  have hbsl : bs ≤ loopmax := by
    by_contra hc
    have : nthr * (loopmax + 1) ≤ nthr * bs := Int.mul_le_mul_of_nonneg_left (by omega) hn.le
    have h5 : nthr * (loopmax + 1) = nthr * loopmax + nthr := by ring
    have h6 : loopmax ≤ nthr * loopmax := by nlinarith
    omega
  set n := (loopmax + bs - 1) / bs with hn'
  have hdm2 : bs * n + (loopmax + bs - 1) % bs = loopmax + bs - 1 := Int.mul_ediv_add_emod _ _
  have hm02 := Int.emod_nonneg (loopmax + bs - 1) (show bs ≠ 0 by omega)
  have hm12 := Int.emod_lt_of_pos (loopmax + bs - 1) hbs1
  have hn0 : 0 ≤ n := Int.ediv_nonneg (by omega) hbs1.le
  have hlo : (n - 1) * bs < loopmax := by have : (n - 1) * bs = bs * n - bs := by ring
                                          omega
  have hhi : loopmax ≤ n * bs := by rw [Int.mul_comm]; omega
  obtain ⟨ds, e1, e2, e3, e4, e5⟩ := blocks_some loopmax bs n hbs1 hlo hhi (by omega) n.toNat 0 (le_refl 0) hn0 (by omega)
  have hc1 : bs * nthr = nthr * bs := Int.mul_comm _ _
  refine ⟨bs, n, ds, ?_, hbs1, by omega, by omega, by omega, ?_, hlo, ?_, e4, ?_⟩
  · unfold spawnLoop
    rw [if_neg (by omega), if_neg (by omega), ck32_some (by omega) (by omega)]
    simp only [Option.bind_eq_bind, Option.bind_some]
    rw [ck32_some (by omega) (by omega)]
    simp only [Option.bind_some]
    rw [Int.tdiv_eq_ediv_of_nonneg (by omega), ← hbs, ck32_some (by omega) (by omega)]
    simp only [Option.bind_some]
    rw [ck32_some (by omega) (by omega)]
    simp only [Option.bind_some]
    rw [Int.tdiv_eq_ediv_of_nonneg (by omega), ← hn', e1]
  · by_contra hc
    have : nthr * bs ≤ (n - 1) * bs := Int.mul_le_mul_of_nonneg_right (by omega) hbs1.le
    omega
  · rw [e3]; simp
  · intro j hj; rw [(e5 j hj).1]; simp

end FFTW.Spawn
