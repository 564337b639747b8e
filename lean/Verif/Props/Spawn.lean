import Verif.Proofs.Spawn

/-!
# C30: thread work partition
-/

namespace FFTW.Props
open FFTW.Spawn

/-- C30: the blocks handed to `proc`, concatenated in order, are exactly the iterations `0, 1, …, loopmax-1`, each once; every
block is non-empty and inside the loop; there are at most `nthr` of them and block `j` carries thread number `j`.
(The bounds say that the C `int` arithmetic does not overflow.) -/
theorem C30_partition (loopmax nthr : Int) (hl : 0 ≤ loopmax) (hn : 0 < nthr) (h2 : 2 * loopmax ≤ 2147483647)
    (h3 : loopmax + nthr ≤ 2147483647) :
    ∃ ds, spawnLoop loopmax nthr = some ds ∧
      (ds.flatMap fun d => (List.range (d.max - d.min).toNat).map fun k : ℕ => d.min + (k : Int)) =
        (List.range loopmax.toNat).map (fun k : ℕ => (k : Int)) ∧
      (∀ d ∈ ds, d.min < d.max ∧ 0 ≤ d.min ∧ d.max ≤ loopmax) ∧
      (ds.length : Int) ≤ nthr ∧
      (∀ j : ℕ, ∀ h : j < ds.length, (ds[j]).thrNum = j) := by
  rcases Int.lt_or_eq_of_le hl with hl | rfl
  · obtain ⟨bs, n, ds, h1, _, _, _, hlen, hn2, _, h3, h4, h5⟩ := spawnLoop_some loopmax nthr hl hn h2 h3
    exact ⟨ds, h1, h3, fun d hd => ⟨(h4 d hd).1, (h4 d hd).2.2.1, (h4 d hd).2.2.2⟩, by omega, h5⟩
  · refine ⟨[], ?_, by simp, by simp, by simp; omega, by simp⟩
    unfold spawnLoop
    rw [if_neg (by omega), if_pos rfl]; rfl

/-- C30: the critical path is minimal (no block is longer than `⌈loopmax / nthr⌉`), and no fewer blocks of that length would do. -/
theorem C30_balanced (loopmax nthr : Int) (hl : 0 < loopmax) (hn : 0 < nthr) (h2 : 2 * loopmax ≤ 2147483647)
    (h3 : loopmax + nthr ≤ 2147483647) :
    ∃ (ds : List SpawnData) (bs : Int), spawnLoop loopmax nthr = some ds ∧ (∀ d ∈ ds, d.max - d.min ≤ bs) ∧
      (∀ b : Int, loopmax ≤ b * nthr → bs ≤ b) ∧ ((ds.length : Int) - 1) * bs < loopmax := by
  obtain ⟨bs, n, ds, h1, hb0, hb1, hb2, hlen, hn2, hlo, h3, h4, h5⟩ := spawnLoop_some loopmax nthr hl hn h2 h3
  refine ⟨ds, bs, h1, fun d hd => (h4 d hd).2.1, ?_, by rw [hlen]; exact hlo⟩
  intro b hb
  by_contra hc
  have : (b + 1) * nthr ≤ bs * nthr := Int.mul_le_mul_of_nonneg_right (by omega) hn.le
  have h6 : (b + 1) * nthr = b * nthr + nthr := by ring
  omega

/-- the example in the source comment: loopmax 5, 4 threads → blocks of 2, 2, 1 -/
example : spawnLoop 5 4 = some [⟨0, 2, 0⟩, ⟨2, 4, 1⟩, ⟨4, 5, 2⟩] := by
  simp [spawnLoop, ck32]
  iterate 4 (rw [blocks]; simp [blockOf, ck32])

/-- with one thread and more than 2^30 iterations `loopmax + block_size` overflows `int` -/
theorem C30_overflow : spawnLoop (2 ^ 30 + 1) 1 = none := by
  simp [spawnLoop, ck32]

end FFTW.Props
