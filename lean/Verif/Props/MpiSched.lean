import Verif.Proofs.MpiSched

/-!
# C38: MPI pairwise exchange schedules
-/

namespace FFTW.Props
open FFTW.MpiSched

/-- a family of schedules `L w` (one per process) is a complete pairwise tournament: every schedule has `npes` steps, at
every step partners agree on each other, and each process meets every process (itself included) exactly once. -/
structure Tournament (npes : Nat) (L : Nat → List Int) : Prop where
  length : ∀ w, w < npes → (L w).length = npes
  range : ∀ (w s : Nat) (v : Int), w < npes → (L w)[s]? = some v → 0 ≤ v ∧ v < npes
  agree : ∀ (w s : Nat) (v : Int), w < npes → (L w)[s]? = some v → (L v.toNat)[s]? = some (w : Int)
  once : ∀ w, w < npes → (L w).Nodup

private theorem tournament_of (npes : Nat) (σ : Nat → Nat) (hσ : ∀ k, k < npes → σ k < npes)
    (hinj : ∀ k l, k < npes → l < npes → σ k = σ l → k = l) :
    Tournament npes fun w => (List.range npes).map fun k => meet npes w (σ k) := by
  have hget : ∀ (w s : Nat) v, ((List.range npes).map fun k => meet npes w (σ k))[s]? = some v → s < npes ∧ v = meet npes w (σ s) := by
    intro w s v h
    by_cases hs : s < npes
    · simp [hs] at h; exact ⟨hs, h.symm⟩
    · rw [List.getElem?_eq_none (by simp; omega)] at h; exact absurd h (by simp)
  refine ⟨by simp, ?_, ?_, ?_⟩
  · intro w s v hw h
    obtain ⟨hs, rfl⟩ := hget w s v h
    exact meet_range npes w (σ s) (by omega) (by omega) (hσ s hs)
  · intro w s v hw h
    obtain ⟨hs, rfl⟩ := hget w s v h
    have hr := meet_range npes w (σ s) (by omega) (by omega) (hσ s hs)
    have := meet_invol npes w (σ s) (by omega) (by omega) (hσ s hs)
    simp only [List.getElem?_map, List.getElem?_range hs, Option.map_some]
    rw [Int.toNat_of_nonneg hr.1, this]
  · intro w hw
    apply List.Nodup.map_on _ List.nodup_range
    intro a ha b hb hab
    exact hinj a b (List.mem_range.1 ha) (List.mem_range.1 hb)
      (meet_inj npes w _ _ (by omega) (by omega) (hσ a (List.mem_range.1 ha)) (hσ b (List.mem_range.1 hb)) hab)

/-- C38: for every process count, `fill1_comm_sched` never overruns its array, its final assertion holds, and the schedules
form a tournament. -/
theorem C38_schedule (npes : Nat) : ∃ L : Nat → List Int, Tournament npes L ∧ ∀ w : Nat, w < npes → fill1 w npes = some (L w) := by
  refine ⟨_, tournament_of npes id (fun k hk => hk) (fun k l _ _ h => h), ?_⟩
  intro w hw
  exact fill1_eq npes w (by omega) (by omega)

/-- C38: after the reordering applied for in-place safety the schedules still form a tournament, and the schedule of the
process that needed sorting is ascending (0,1,2,…) or descending. -/
theorem C38_sorted (npes : Nat) (sortpe : Nat) (hs : sortpe < npes) (asc : Bool) :
    ∃ L : Nat → List Int, Tournament npes L ∧
      (∀ (w : Nat) (junk : List Int), w < npes → junk.length = npes → mkSched w npes sortpe asc junk = some (L w)) ∧
      L sortpe = if asc then (List.range npes).map (fun k : ℕ => (k : Int)) else ((List.range npes).map (fun k : ℕ => (k : Int))).reverse := by
  obtain ⟨σ, h1, h2, h3⟩ := mkSched_sorted npes sortpe asc (by omega) (by omega)
  refine ⟨_, tournament_of npes σ (fun k hk => (h1 k hk).1) h2, fun w junk hw hj => h3 w junk (by omega) (by omega) hj, ?_⟩
  apply List.ext_getElem?
  intro k
  by_cases hk : k < npes
  · simp only [List.getElem?_map, List.getElem?_range hk, Option.map_some]
    rw [(h1 k hk).2]
    cases asc
    · simp only [Bool.false_eq_true, if_false]
      rw [List.getElem?_reverse (by simpa using hk)]
      simp only [List.length_map, List.length_range, List.getElem?_map]
      rw [List.getElem?_range (by omega)]
      simp only [Option.map_some]
      congr 1; omega
    · simp [hk]
  · rw [List.getElem?_eq_none (by simp; omega), List.getElem?_eq_none (by split <;> simp <;> omega)]

-- four processes: process 1 meets 1, 2, 3, 0
example : fill1 1 4 = some [1, 2, 3, 0] := by decide
example : fill1 2 5 = some [3, 0, 2, 4, 1] := by decide

end FFTW.Props
