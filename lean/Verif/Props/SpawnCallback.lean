import Verif.Model.SpawnCallback
import Verif.Props.Spawn
import Mathlib.Data.List.ReduceOption

/-!
# C30: the user's parallel loop
-/

namespace FFTW.Spawn

theorem fill_blocks (sdata : ℕ) (loopmax bs n : Int) : ∀ (k : ℕ) (i : ℕ), (n - i).toNat = k → (i : Int) ≤ n → ∀ (ds : List SpawnData) (mem : JobMem), blocks loopmax bs n i = some ds →
    (ds.length : Int) = n - i ∧ ∃ mem', fill sdata loopmax bs n i mem = some mem' ∧ (∀ j (h : j < ds.length), mem' (sdata + sizeofSpawnData * (i + j)) = some ds[j]) ∧
      ∀ a, a < sdata + sizeofSpawnData * i → mem' a = mem a := by
  intro k
  induction k with
  | zero =>
    intro i hk hi ds mem h
    have : ¬ (i : Int) < n := by omega
    rw [blocks, if_neg this] at h
    obtain rfl : [] = ds := Option.some.inj h
    refine ⟨by simp; omega, mem, ?_, by simp, fun _ _ => rfl⟩
    rw [fill, if_neg this]
    rfl
  | succ k ih =>
    intro i hk hi ds mem h
    have hlt : (i : Int) < n := by omega
    rw [blocks, if_pos hlt] at h
    cases hb : blockOf loopmax bs i with
    | none => rw [hb] at h; simp at h
    | some d =>
      rw [hb] at h
      simp only [Option.bind_eq_bind, Option.bind_some] at h
      have e : ((i : Int) + 1) = ((i + 1 : ℕ) : Int) := by push_cast; rfl
      rw [e] at h
      cases hb2 : blocks loopmax bs n ((i + 1 : ℕ) : Int) with
      | none => rw [hb2] at h; simp at h
      | some ds' =>
        rw [hb2] at h
        obtain rfl : d :: ds' = ds := Option.some.inj h
        obtain ⟨h1, mem', h2, h3, h4⟩ := ih (i + 1) (by omega) (by omega) ds' (fun a => if (a : Int) = sdata + sizeofSpawnData * i then some d else mem a) hb2
        refine ⟨by simp only [List.length_cons]; push_cast at h1 ⊢; omega, mem', ?_, ?_, ?_⟩
        · rw [fill, if_pos hlt, hb]
          simp only [Option.bind_eq_bind, Option.bind_some]
          rw [e]
          exact h2
        · intro j hj
          rcases j with _ | j
          · rw [h4 _ (by unfold sizeofSpawnData; omega), List.getElem_cons_zero]
            exact if_pos (by push_cast; rfl)
          · have := h3 j (by simpa using hj)
            rw [List.getElem_cons_succ, ← this]
            rw [show i + (j + 1) = i + 1 + j by omega]
        · intro a ha
          rw [h4 a (by unfold sizeofSpawnData at *; omega)]
          refine if_neg fun h => ?_
          unfold sizeofSpawnData at *
          omega

theorem callback_blocks (sdata : ℕ) {loopmax nthr : Int} (hl : 0 < loopmax) (hn : 0 < nthr) (h2 : 2 * loopmax ≤ 2147483647) (h3 : loopmax + nthr ≤ 2147483647) {ds : List SpawnData}
    (h : spawnLoop loopmax nthr = some ds) :
    ∃ mem, spawnLoopCallback sdata loopmax nthr = some (some ⟨mem, sdata, sizeofSpawnData, ds.length⟩) ∧ ∀ j (h : j < ds.length), mem (sdata + sizeofSpawnData * j) = some ds[j] := by
  unfold spawnLoop at h
  unfold spawnLoopCallback
  rw [if_neg (by omega), if_neg (by omega)] at h ⊢
  rw [ck32_some (by omega) (by omega)] at h ⊢
  simp only [Option.bind_eq_bind, Option.bind_some] at h ⊢
  rw [ck32_some (by omega) (by omega)] at h ⊢
  simp only [Option.bind_some] at h ⊢
  cases e1 : ck32 (loopmax + (loopmax + nthr - 1).tdiv nthr) with
  | none => rw [e1] at h; simp at h
  | some c =>
    rw [e1] at h
    simp only [Option.bind_some] at h ⊢
    cases e2 : ck32 (c - 1) with
    | none => rw [e2] at h; simp at h
    | some c' =>
      rw [e2] at h
      simp only [Option.bind_some] at h ⊢
      generalize hN : c'.tdiv ((loopmax + nthr - 1).tdiv nthr) = N at h ⊢
      have hN0 : (0 : Int) ≤ N := by
        have a1 : 0 ≤ (loopmax + nthr - 1).tdiv nthr := Int.tdiv_nonneg (by omega) (by omega)
        have c1 : c = loopmax + (loopmax + nthr - 1).tdiv nthr := by
          unfold ck32 at e1
          split at e1
          · exact (Option.some.inj e1).symm
          · simp at e1
        have c2 : c' = c - 1 := by
          unfold ck32 at e2
          split at e2
          · exact (Option.some.inj e2).symm
          · simp at e2
        rw [← hN]
        exact Int.tdiv_nonneg (by omega) a1
      obtain ⟨k1, mem, k2, k3, _⟩ := fill_blocks sdata loopmax ((loopmax + nthr - 1).tdiv nthr) N _ 0 rfl (by simpa using hN0) ds (fun _ => none) (by simpa using h)
      refine ⟨mem, ?_, fun j hj => by have := k3 j hj; rwa [Nat.zero_add] at this⟩
      rw [show ((0 : ℕ) : Int) = 0 from rfl] at k2 k1
      rw [k2, k1]
      simp

end FFTW.Spawn

namespace FFTW.Props
open FFTW.Spawn

/-- what the manual asks of a `parallel_loop`: `calls` are the arguments of the calls of `work`, in whatever order; there is one for each `jobdata + elsize*i`, `i` from 0 to `njobs-1` -/
def KeepsContract (calls : List ℕ) (jobdata elsize : ℕ) (njobs : Int) : Prop := calls.Perm ((List.range njobs.toNat).map fun i => jobdata + elsize * i)

/-- C30 with `fftw_threads_set_callback`: whatever parallel loop the user has installed, if it does what the manual asks for, then every call of `work` gets a job that has been filled in, every
iteration of FFTW's loop is run exactly once, and the jobs are at most `nthr`, with thread numbers 0, 1, …, each once.  An empty loop calls nothing. -/
theorem C30_callback (sdata : ℕ) (loopmax nthr : Int) (hl : 0 ≤ loopmax) (hn : 0 < nthr) (h2 : 2 * loopmax ≤ 2147483647) (h3 : loopmax + nthr ≤ 2147483647) :
    if loopmax = 0 then spawnLoopCallback sdata loopmax nthr = some none
    else ∃ args, spawnLoopCallback sdata loopmax nthr = some (some args) ∧ args.njobs ≤ nthr ∧ ∀ calls, KeepsContract calls args.jobdata args.elsize args.njobs →
      ∃ jobs : List SpawnData, calls.map args.mem = jobs.map some ∧
        (jobs.flatMap fun d => (List.range (d.max - d.min).toNat).map fun k : ℕ => d.min + (k : Int)).Perm ((List.range loopmax.toNat).map fun k : ℕ => (k : Int)) ∧
        (jobs.map SpawnData.thrNum).Perm ((List.range args.njobs.toNat).map fun k : ℕ => (k : Int)) := by
  split
  · rename_i h
    unfold spawnLoopCallback
    rw [if_neg (by omega), if_pos h]
    rfl
  rename_i h0
  obtain ⟨ds, e1, e2, e3, e4, e5⟩ := C30_partition loopmax nthr hl hn h2 h3
  obtain ⟨mem, k1, k2⟩ := callback_blocks sdata (by omega) hn h2 h3 e1
  refine ⟨_, k1, e4, fun calls hc => ?_⟩
  unfold KeepsContract at hc
  simp only [Int.toNat_natCast] at hc ⊢
  have hm : ((List.range ds.length).map fun i => sdata + sizeofSpawnData * i).map mem = ds.map some := by
    refine List.ext_getElem (by simp) fun i h1 h2 => ?_
    simp only [List.getElem_map, List.getElem_range]
    exact k2 i (by simpa using h2)
  have hp := hc.map mem
  rw [hm] at hp
  have hj : ∃ jobs : List SpawnData, calls.map mem = jobs.map some ∧ jobs.Perm ds := by
    refine ⟨(calls.map mem).reduceOption, ?_, ?_⟩
    · have hs : ∀ x ∈ calls.map mem, x.isSome := by
        intro x hx
        obtain ⟨d, _, rfl⟩ := List.mem_map.1 (hp.subset hx)
        rfl
      generalize calls.map mem = l at hs
      induction l with
      | nil => rfl
      | cons x l ih =>
        obtain ⟨d, rfl⟩ := Option.isSome_iff_exists.1 (hs x (List.mem_cons_self ..))
        rw [List.reduceOption_cons_of_some, List.map_cons, ← ih fun y hy => hs y (List.mem_cons_of_mem _ hy)]
    · have := hp.filterMap id
      simpa [List.reduceOption, List.filterMap_map] using this
  obtain ⟨jobs, j1, j2⟩ := hj
  refine ⟨jobs, j1, ?_, ?_⟩
  · rw [← e2]
    exact j2.flatMap_right _
  · refine (j2.map _).trans (List.Perm.of_eq ?_)
    refine List.ext_getElem (by simp) fun i h1 h2 => ?_
    simp only [List.getElem_map, List.getElem_range]
    exact e5 i (by simpa using h1)

/-- a callback that runs its jobs in the opposite order, on the loop of the source comment -/
example : ∃ args, spawnLoopCallback 1000 5 4 = some (some args) ∧ args.njobs = 3 ∧ KeepsContract [1048, 1024, 1000] args.jobdata args.elsize args.njobs ∧
    [1048, 1024, 1000].map args.mem = [some ⟨4, 5, 2⟩, some ⟨2, 4, 1⟩, some ⟨0, 2, 0⟩] := by
  have h : spawnLoop 5 4 = some [⟨0, 2, 0⟩, ⟨2, 4, 1⟩, ⟨4, 5, 2⟩] := by
    simp [spawnLoop, ck32]
    iterate 4 (rw [blocks]; simp [blockOf, ck32])
  obtain ⟨mem, k1, k2⟩ := callback_blocks 1000 (by norm_num) (by norm_num) (by norm_num) (by norm_num) h
  have a0 := k2 0 (by decide)
  have a1 := k2 1 (by decide)
  have a2 := k2 2 (by decide)
  simp [sizeofSpawnData] at a0 a1 a2
  refine ⟨_, k1, rfl, ?_, by simp [a0, a1, a2]⟩
  show List.Perm [1048, 1024, 1000] [1000, 1024, 1048]
  decide

end FFTW.Props
