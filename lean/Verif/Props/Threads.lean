import Verif.Proofs.ThreadsVec
import Verif.Proofs.ThreadsTw
import Verif.Proofs.ThreadsRace
import Verif.Props.Spawn
import Verif.Props.Registered
import Verif.Props.RegisteredRdft

/-!
# C55: threads do not change results

The solvers of threads/ are sound for every scheduler, so plans made with any number of threads compute what single-threaded plans compute.
In those theorems one thread's part runs as a whole; `C55_any_interleaving` and the `C55_no_race` theorems say that nothing finer can be observed,
because no thread writes a location that another thread reads or writes.
-/

namespace FFTW.Props
open Tensor Spec Thr
open DftS (Taste Dec Inferior)
open RdftS (HInferior)

/-! ### the division of the work -/

/-- C55: `block_size`, `nthr` and the length of the last block, as all threaded solvers compute them, divide `0, 1, ..., n-1` exactly: at most
`nthr` threads, each with a nonempty block, and concatenating the blocks gives every number once, in order -/
theorem C55_blocks (n nthr : ℕ) (hn : 0 < n) (ht : 0 < nthr) :
    0 < count n nthr ∧ count n nthr ≤ nthr ∧ (∀ i < count n nthr, 0 < blockLen n nthr i) ∧
    Multiset.range n = (Multiset.range (count n nthr)).bind fun i => (Multiset.range (blockLen n nthr i)).map fun j => i * blockSize n nthr + j :=
  ⟨count_pos hn ht, count_le hn ht, fun _ hi => (block_end hn ht hi).2, range_blocks hn ht⟩

/-- C55: the threads left for each child are at least one and, together, not fewer than all threads -/
theorem C55_inner (n nthr : ℕ) (hn : 0 < n) (ht : 0 < nthr) : 0 < inner n nthr ∧ nthr ≤ count n nthr * inner n nthr := by
  have h := count_pos hn ht
  unfold inner
  constructor
  · exact Nat.div_pos (by omega) h
  · have := Nat.div_add_mod (nthr + count n nthr - 1) (count n nthr)
    have := Nat.mod_lt (nthr + count n nthr - 1) h
    omega

/-- C30, C55: `X(spawn_loop)(nthr, nthr, ...)`, as the solvers call it, runs thread `j` on the single iteration `j` -/
theorem C55_spawnLoop_unit (n : ℕ) (hn : 0 < n) (h2 : 2 * n ≤ 2147483647) :
    Spawn.spawnLoop n n = some ((List.range n).map fun j : ℕ => ⟨j, j + 1, j⟩) := by
  obtain ⟨bs, N, ds, h1, h3, h4, h5, h6, h7, h8, h9, h10, h11⟩ := Spawn.spawnLoop_some n n (by omega) (by omega) (by omega) (by omega)
  have hbs : bs = 1 := by
    have : bs * n < 2 * n := by omega
    have := lt_of_mul_lt_mul_right this (by omega)
    omega
  subst hbs
  have hit : ∀ d ∈ ds, d.iters = [d.min] := by
    intro d hd
    obtain ⟨e1, e2, -⟩ := h10 d hd
    have : (d.max - d.min).toNat = 1 := by omega
    simp [Spawn.SpawnData.iters, this]
  have hmap : ds.flatMap Spawn.SpawnData.iters = ds.map (·.min) := by
    clear h1 h6 h9 h10 h11
    induction ds with
    | nil => rfl
    | cons d ds ih =>
      rw [List.flatMap_cons, ih fun d hd => hit d (by simp [hd]), hit d (by simp)]
      rfl
  rw [hmap, show (n : ℤ).toNat = n by omega] at h9
  have hlen : ds.length = n := by simpa using congrArg List.length h9
  rw [h1]
  congr 1
  apply List.ext_getElem
  · simp [hlen]
  · intro j hj1 hj2
    have hmin : (ds[j]).min = j := by
      have : (ds.map (·.min))[j]? = ((List.range n).map fun k : ℕ => (k : ℤ))[j]? := by rw [h9]
      rw [List.getElem?_map, List.getElem?_map, List.getElem?_eq_getElem hj1, List.getElem?_range (by omega)] at this
      simpa using this
    obtain ⟨e1, e2, -⟩ := h10 _ (List.getElem_mem hj1)
    have e3 := h11 j hj1
    simp only [List.getElem_map, List.getElem_range]
    rcases hd : ds[j] with ⟨a, b, c⟩
    rw [hd] at hmin e1 e2 e3
    simp only at hmin e1 e2 e3
    subst hmin e3
    congr 1
    omega

/-- 10 items for 4 threads: blocks of 3, 3, 3 and 1; 5 items for 4 threads: three blocks, and two threads for each child -/
example : (List.range (count 10 4)).map (blockLen 10 4) = [3, 3, 3, 1] ∧ (List.range (count 5 4)).map (blockLen 5 4) = [2, 2, 1] ∧ inner 5 4 = 2 := by decide

/-! ### the threaded solvers -/

section
variable [CLib] (S : Sched)

/-- C55: a loop over complex transforms divided among threads, whatever the schedule -/
theorem C55_dft_loop (vecloopDim : Int) (buddies : List Int) (taste : Taste) : (DftS.thrVrankGeq1 S vecloopDim buddies taste).Sound :=
  DftS.thrVrankGeq1_sound S vecloopDim buddies taste
/-- C55: a loop over real transforms divided among threads -/
theorem C55_rdft_loop (vecloopDim : Int) (buddies : List Int) (taste : Taste) : (RdftS.thrVrankGeq1 S vecloopDim buddies taste).Sound :=
  RdftS.thrVrankGeq1_sound S vecloopDim buddies taste
/-- C55: a loop over r2c or c2r transforms divided among threads -/
theorem C55_rdft2_loop (vecloopDim : Int) (buddies : List Int) (taste : Taste) : (Rdft2S.thrVrankGeq1 S vecloopDim buddies taste).Sound :=
  thrVrankGeq1_2_sound S vecloopDim buddies taste
/-- C55: Cooley-Tukey with the twiddle step divided among threads -/
theorem C55_ct (rdx : ℤ) (dec : Dec) (mkcldw : Inferior) (taste : Taste) (hw : Inferior.Sound (decide (dec = .dit)) mkcldw) :
    (DftS.thrCt S rdx dec mkcldw taste).Sound := DftS.thrCt_sound S rdx dec mkcldw taste hw
/-- C55: the same for halfcomplex transforms -/
theorem C55_hc2hc (rdx : ℤ) (mkcldw : HInferior) (taste : Taste) (hw : HInferior.Sound mkcldw) : (RdftS.thrHc2hc S rdx mkcldw taste).Sound :=
  RdftS.thrHc2hc_sound S rdx mkcldw taste hw
end

/-- a scheduler: the last thread first -/
def exReversed : Sched where
  order n _ := (List.range n).reverse
  perm n _ := List.reverse_perm _

/-- the threaded solvers do make plans: 10 transforms with 4 threads, out of place; 15 = 3 * 5, in place, 4 times -/
example [CLib] (S : Sched) (fl : Flags) (h : fl.nthr = 4) (c : Plan) :
    (((DftS.thrVrankGeq1 S 1 [1, -1] fun _ _ => true).mkplan
      (.dft ⟨[⟨15, 2, 2⟩], some [⟨10, 30, 30⟩], ⟨0, 0⟩, ⟨0, 1⟩, ⟨1, 0⟩, ⟨1, 1⟩⟩) fl).answer c).isSome = true := by
  have h1 : DftS.pickdim 1 [1, -1] [⟨10, 30, 30⟩] true = some 0 := by decide
  have h2 : count 10 4 = 4 := by decide
  simp [DftS.thrVrankGeq1, DftS.dftSolver, h, h1, h2, collect, Mk.bind, Mk.answer]
example [CLib] (S : Sched) (cexp : ℕ → ℤ → ℝ × ℝ) (fl : Flags) (h : fl.nthr = 4) (c : Plan) :
    (((DftS.thrCt S 3 .dit (DftS.dftwGeneric cexp .dit fun _ _ => true) fun _ _ => true).mkplan
      (.dft ⟨[⟨15, 2, 2⟩], some [⟨4, 30, 30⟩], ⟨0, 0⟩, ⟨0, 1⟩, ⟨0, 0⟩, ⟨0, 1⟩⟩) fl).answer c).isSome = true := by
  have h3 : Primes.chooseRadix 3 15 = some 3 := by rw [Primes.chooseRadix_pos (by norm_num) (by norm_num) (by unfold INT_MAX; norm_num)]; rfl
  have h2 : count 5 4 = 3 := by decide
  simp [DftS.thrCt, DftS.thrInferior, DftS.ctWith, DftS.dftSolver, DftS.tornk1, h, h2, h3, DftS.Mk.needW, DftS.dftwGeneric, Mk.need, collect, withNthr, Mk.bind, Mk.answer]
example [CLib] (S : Sched) (cexp : ℕ → ℤ → ℝ × ℝ) (fl : Flags) (h : fl.nthr = 2) (c : Plan) :
    (((RdftS.thrHc2hc S 3 (RdftS.hc2hcGeneric cexp fun _ _ => true) fun _ _ => true).mkplan
      (.rdft ⟨[(⟨15, 2, 2⟩, .R2HC00)], some [⟨4, 30, 30⟩], ⟨0, 0⟩, ⟨0, 0⟩⟩) fl).answer c).isSome = true := by
  have h3 : Primes.chooseRadix 3 15 = some 3 := by rw [Primes.chooseRadix_pos (by norm_num) (by norm_num) (by unfold INT_MAX; norm_num)]; rfl
  have h2 : count 3 2 = 2 := by decide
  simp [RdftS.thrHc2hc, RdftS.thrHInferior, RdftS.hc2hcWith, RdftS.rdftSolver, DftS.tornk1, h, h2, h3, RdftS.Mk.needH, RdftS.hc2hcGeneric, Mk.need, collect, withNthr, Mk.bind, Mk.answer]

/-! ### no races -/

/-- C55: what one thread of a threaded loop may write, no other thread reads or writes.  `v` is the vector of transforms, divided along its
dimension `d`; thread `j` has the block of `blockLen d.n nthr j` transforms beginning at number `j * blockSize d.n nthr`. -/
theorem C55_no_race_loop {V τ : Type} [CommRing V] [Elt V] {sz : List (Dim × τ)} {v : List Dim} {vdim nthr : ℕ} {d : Dim} {δi δo : ℤ} {inpl nd : Bool}
    (hd : v[vdim]? = some d) (hn : 0 < d.n) (ht : 0 < nthr) (hs : inpl = true → d.is = d.os)
    (hin : inpl = true → ∀ i < count d.n nthr, ins (locT V δi δo sz (some (v.set vdim ⟨blockLen d.n nthr i, d.is, d.os⟩))) =
      outs (locT V δi δo sz (some (v.set vdim ⟨blockLen d.n nthr i, d.is, d.os⟩))))
    (wf : WF V sz (some v) δi δo inpl nd) {I O : Ptr} {st : State} (hcomp : Compat (locT V δi δo sz (some v)) inpl I O st)
    (j k : ℕ) (hj : j < count d.n nthr) (hk : k < count d.n nthr) (hjk : j ≠ k) (q : Ptr)
    (hq : Writable (locT V δi δo sz (some (v.set vdim ⟨blockLen d.n nthr k, d.is, d.os⟩))) nd
      (I + ((k * blockSize d.n nthr : ℕ) : ℤ) * d.is) (O + ((k * blockSize d.n nthr : ℕ) : ℤ) * d.os) q) :
    (∀ a ∈ ins (locT V δi δo sz (some (v.set vdim ⟨blockLen d.n nthr j, d.is, d.os⟩))), q ≠ (I + ((j * blockSize d.n nthr : ℕ) : ℤ) * d.is) + a) ∧
    ∀ b ∈ outs (locT V δi δo sz (some (v.set vdim ⟨blockLen d.n nthr j, d.is, d.os⟩))), q ≠ (O + ((j * blockSize d.n nthr : ℕ) : ℤ) * d.os) + b := by
  have e1 : ∀ i : ℕ, ((i * blockSize d.n nthr : ℕ) : ℤ) * d.is = (i : ℤ) * (d.is * (blockSize d.n nthr : ℤ)) := by intro i; push_cast; ring
  have e2 : ∀ i : ℕ, ((i * blockSize d.n nthr : ℕ) : ℤ) * d.os = (i : ℤ) * (d.os * (blockSize d.n nthr : ℤ)) := by intro i; push_cast; ring
  rw [e1, e2] at hq ⊢
  have := (pieces_sep (pairs_blocks_at hd hn ht) (fun i _ h => by simp only; rw [hs h]) hin wf hcomp).1 j hj k hk hjk q
  refine ⟨fun a ha e => this (Or.inl ⟨a, ha, by rw [e, Ptr.add_add]⟩) hq, fun b hb e => this (Or.inr ⟨b, hb, by rw [e, Ptr.add_add]⟩) hq⟩

open Conc in
/-- C55: a loop over transforms divided among threads whose memory accesses are interleaved in any way.  Thread `i` runs the accesses `P i`, which
read only the inputs of its block and write only the places its plan may write, and scratch space `scr i` of its own; run alone, it computes its
transforms.  Then any interleaving computes all transforms and changes nothing it may not change. -/
theorem C55_any_interleaving {V τ : Type} [CommRing V] [Elt V] {K : τ → ℕ → ℕ → ℕ → V} {sz : List (Dim × τ)} {v : List Dim} {vdim nthr : ℕ} {d : Dim} {δi δo : ℤ}
    {inpl nd : Bool} (hd : v[vdim]? = some d) (hn : 0 < d.n) (ht : 0 < nthr) (hs : inpl = true → d.is = d.os)
    (hin : inpl = true → ∀ i < count d.n nthr, ins (locT V δi δo sz (some (v.set vdim ⟨blockLen d.n nthr i, d.is, d.os⟩))) =
      outs (locT V δi δo sz (some (v.set vdim ⟨blockLen d.n nthr i, d.is, d.os⟩))))
    (wf : WF V sz (some v) δi δo inpl nd) {I O : Ptr} {st : State} (hcomp : Compat (locT V δi δo sz (some v)) inpl I O st)
    {scr : ℕ → Ptr → Prop} (hs1 : ∀ i < count d.n nthr, ∀ q, scr i q → st.next ≤ q.blk)
    (hs2 : ∀ i < count d.n nthr, ∀ j < count d.n nthr, i ≠ j → ∀ q, scr i q → ¬ scr j q)
    {P : ℕ → List (Act Ptr ℝ)}
    (hP : ∀ i < count d.n nthr, ∀ a ∈ P i,
      Confined (fun q => ∃ a ∈ ins (locT V δi δo sz (some (v.set vdim ⟨blockLen d.n nthr i, d.is, d.os⟩))), q = I + ((i : ℤ) * (d.is * (blockSize d.n nthr : ℤ)) + a))
        (fun q => Writable (locT V δi δo sz (some (v.set vdim ⟨blockLen d.n nthr i, d.is, d.os⟩))) nd
          (I + (i : ℤ) * (d.is * (blockSize d.n nthr : ℤ))) (O + (i : ℤ) * (d.os * (blockSize d.n nthr : ℤ))) q ∨ scr i q) a)
    (hval : ∀ i < count d.n nthr, ∀ dk, GIdx sz dk → ∀ ab ∈ pairs (some (v.set vdim ⟨blockLen d.n nthr i, d.is, d.os⟩)),
      val ((P i).foldl (fun m a => a m) st.mem) (O + (i : ℤ) * (d.os * (blockSize d.n nthr : ℤ))) δo (gOut dk + ab.2) =
        gSum K dk fun o => (val st.mem (I + (i : ℤ) * (d.is * (blockSize d.n nthr : ℤ))) δi (o + ab.1) : V))
    {l : List (ℕ × Act Ptr ℝ)} (hl : Interleaves (count d.n nthr) P l) :
    (∀ q, q.blk < st.next → ¬ Writable (locT V δi δo sz (some v)) nd I O q → run l st.mem q = st.mem q) ∧
    ∀ dk, GIdx sz dk → ∀ ab ∈ pairs (some v), val (run l st.mem) O δo (gOut dk + ab.2) = gSum K dk fun o => (val st.mem I δi (o + ab.1) : V) :=
  pieces_interleaved (pairs_blocks_at hd hn ht) (fun i _ h => by simp only; rw [hs h]) hin wf hcomp hs1 hs2 hP hval hl

open Conc in
/-- C55: the general fact.  If `n` threads share a memory, each access of thread `i` reads only `R i` and `W i` and writes only `W i`, and no thread
writes what another one reads or writes, then every interleaving ends with the memory that results from running the threads one after the
other in any order. -/
theorem C55_race_free_threads {A X : Type} {n : ℕ} {R W : ℕ → A → Prop} (hr : ∀ i < n, ∀ j < n, i ≠ j → ∀ q, W i q → ¬ R j q ∧ ¬ W j q)
    {P : ℕ → List (Act A X)} (hP : ∀ i < n, ∀ a ∈ P i, Confined (R i) (W i) a) {l : List (ℕ × Act A X)} (hl : Interleaves n P l) {o : List ℕ}
    (ho : o.Perm (List.range n)) (m : A → X) : run l m = run (sequential P o) m := run_sequential hr hP hl ho m

section
open Conc

/-- copy one number -/
def exCopy (a b : Ptr) : Act Ptr ℝ := fun m => Function.update m b (m a)

theorem exCopy_confined {R W : Ptr → Prop} {a b : Ptr} (ha : R a) (hb : W b) : Confined R W (exCopy a b) := by
  constructor
  · intro m q hq
    exact Function.update_of_ne (fun h => hq (by rw [h]; exact hb)) _ _
  · intro m m' h q hq
    unfold exCopy
    by_cases hqb : q = b
    · subst hqb; rw [Function.update_self, Function.update_self]; exact h a (Or.inl ha)
    · rw [Function.update_of_ne hqb, Function.update_of_ne hqb]; exact h q (Or.inr hq)

/-- the hypotheses of `C55_any_interleaving` are met: three numbers are copied by two threads, the first of which copies two, with the second thread's
copy in between -/
example (K : Unit → ℕ → ℕ → ℕ → ℝ) (st : State) (hst : 2 ≤ st.next) :
    (run [(0, exCopy ⟨0, 0⟩ ⟨1, 0⟩), (1, exCopy ⟨0, 2⟩ ⟨1, 2⟩), (0, exCopy ⟨0, 1⟩ ⟨1, 1⟩)] st.mem) ⟨1, 1⟩ = st.mem ⟨0, 1⟩ := by
  have hc : count 3 2 = 2 := by decide
  have hT : ∀ n : ℕ, ∀ x, x ∈ ins (locT ℝ 0 0 ([] : List (Dim × Unit)) (some [⟨n, 1, 1⟩])) ↔ ∃ j : ℕ, j < n ∧ x = (j : ℤ) := by
    intro n x
    simp [locT, append, ins, offs, Elt.nc, eq_comm]
  have hT' : ∀ n : ℕ, ∀ x, x ∈ outs (locT ℝ 0 0 ([] : List (Dim × Unit)) (some [⟨n, 1, 1⟩])) ↔ ∃ j : ℕ, j < n ∧ x = (j : ℤ) := by
    intro n x
    simp [locT, append, outs, offs, Elt.nc, eq_comm]
  have key := C55_any_interleaving (V := ℝ) (K := K) (sz := []) (v := [⟨3, 1, 1⟩]) (vdim := 0) (nthr := 2) (d := ⟨3, 1, 1⟩) (δi := 0) (δo := 0) (inpl := false)
    (nd := true) rfl (by norm_num) (by norm_num) (by simp) (by simp) (I := ⟨0, 0⟩) (O := ⟨1, 0⟩) (st := st) ?_ ?_ (scr := fun _ _ => False) (by simp) (by simp)
    (P := fun i => if i = 0 then [exCopy ⟨0, 0⟩ ⟨1, 0⟩, exCopy ⟨0, 1⟩ ⟨1, 1⟩] else [exCopy ⟨0, 2⟩ ⟨1, 2⟩]) ?_ ?_
    (l := [(0, exCopy ⟨0, 0⟩ ⟨1, 0⟩), (1, exCopy ⟨0, 2⟩ ⟨1, 2⟩), (0, exCopy ⟨0, 1⟩ ⟨1, 1⟩)]) ?_
  · have h := key.2 [] ⟨rfl, by simp⟩ (1, 1) (by rw [mem_pairs_cons]; exact ⟨1, by norm_num, (0, 0), by simp [pairs, offs], by simp⟩)
    exact h
  · refine ⟨?_, by simp, by simp, by simp⟩
    have : outs (locT ℝ 0 0 ([] : List (Dim × Unit)) (some [⟨3, 1, 1⟩])) = {0, 1, 2} := by decide
    rw [this]; decide
  · refine ⟨by show 0 < st.next; omega, by show 1 < st.next; omega, by simp, fun _ a _ b _ h => ?_⟩
    have := congrArg Ptr.blk h
    simp [Ptr.add_blk] at this
  · rw [hc]
    intro i hi a ha
    interval_cases i
    · simp only [if_true, List.mem_cons, List.not_mem_nil, or_false] at ha
      rcases ha with rfl | rfl
      · exact exCopy_confined ⟨0, (hT _ _).2 ⟨0, by decide, rfl⟩, by decide⟩ (Or.inl (Or.inl ⟨0, (hT' _ _).2 ⟨0, by decide, rfl⟩, by decide⟩))
      · exact exCopy_confined ⟨1, (hT _ _).2 ⟨1, by decide, rfl⟩, by decide⟩ (Or.inl (Or.inl ⟨1, (hT' _ _).2 ⟨1, by decide, rfl⟩, by decide⟩))
    · simp only [one_ne_zero, if_false, List.mem_cons, List.not_mem_nil, or_false] at ha
      subst ha
      exact exCopy_confined ⟨0, (hT _ _).2 ⟨0, by decide, rfl⟩, by decide⟩ (Or.inl (Or.inl ⟨0, (hT' _ _).2 ⟨0, by decide, rfl⟩, by decide⟩))
  · rw [hc]
    intro i hi dk hdk ab hab
    obtain ⟨h1, h2⟩ := hdk
    obtain rfl : dk = [] := by simpa using h1
    obtain ⟨j, hj, q, hq, rfl⟩ := mem_pairs_cons.1 hab
    obtain rfl : q = 0 := by simpa [pairs, offs] using hq
    have a1 : ∀ b : ℕ, ((⟨b, 0⟩ : Ptr) + (1 : ℤ)) = ⟨b, 1⟩ := fun b => rfl
    have a2 : ∀ b : ℕ, ((⟨b, 0⟩ : Ptr) + (2 : ℤ)) = ⟨b, 2⟩ := fun b => rfl
    interval_cases i
    · replace hj : j < 2 := hj
      interval_cases j <;> simp [val, Elt.dec, gSum, gOut, exCopy, Function.update_apply, blockSize, a1, a2]
    · replace hj : j < 1 := hj
      interval_cases j
      simp [val, Elt.dec, gSum, gOut, exCopy, Function.update_apply, blockSize, a1, a2]
  · rw [hc]
    refine ⟨by simp, fun i hi => ?_⟩
    interval_cases i <;> simp [only]
end

/-- C55: in a twiddle step divided among threads, no location belongs to the columns of two threads -/
theorem C55_no_race_columns {t : TwP} {nthr : ℕ} {δ : ℤ} (hn : 0 < t.mc) (ht : 0 < nthr) (hnd : (outs (t.locT δ)).Nodup) {P q : Ptr} {j k : ℕ}
    (hj : j < count t.mc nthr) (hk : k < count t.mc nthr)
    (h : ∃ b ∈ outs (({ t with mb := t.mb + j * blockSize t.mc nthr, mc := blockLen t.mc nthr j } : TwP).locT δ),
      q = P + (((t.mb + j * blockSize t.mc nthr : ℕ) : ℤ) * t.ms + b))
    (h' : ∃ b ∈ outs (({ t with mb := t.mb + k * blockSize t.mc nthr, mc := blockLen t.mc nthr k } : TwP).locT δ),
      q = P + (((t.mb + k * blockSize t.mc nthr : ℕ) : ℤ) * t.ms + b)) : j = k := by
  have key : ∀ i < count t.mc nthr, (∃ b ∈ outs (({ t with mb := t.mb + i * blockSize t.mc nthr, mc := blockLen t.mc nthr i } : TwP).locT δ),
      q = P + (((t.mb + i * blockSize t.mc nthr : ℕ) : ℤ) * t.ms + b)) →
      ∃ l, i * blockSize t.mc nthr ≤ l ∧ l < i * blockSize t.mc nthr + blockLen t.mc nthr i ∧ l < t.mc ∧ ColLoc t δ P (t.mb + l) q := by
    rintro i hi ⟨b, hb, rfl⟩
    have e := (block_end hn ht hi).1
    obtain ⟨c, x, l, y, hc, hx, hl, hy, rfl⟩ := mem_outs_tw.1 hb
    simp only at hl hx hy
    exact ⟨i * blockSize t.mc nthr + l, by omega, by omega, by omega, c, x, y, hc, hx, hy, by congr 1; push_cast; ring⟩
  obtain ⟨l, h1, h2, h3, h4⟩ := key j hj h
  obtain ⟨l', h1', h2', h3', h4'⟩ := key k hk h'
  have := colLoc_inj hnd (by omega) (by omega) (by omega) (by omega) h4 h4'
  have : l = l' := by omega
  subst this
  exact block_unique hn ht hj hk h1 h2 h1' h2'

/-- C55: the same for the halfcomplex twiddle step, whose column `l` consists of the columns `l` and `m - l` of the array -/
theorem C55_no_race_hc_columns {t : HcP} {nthr : ℕ} (hn : 0 < t.mc) (ht : 0 < nthr) (hnd : (offs [(t.r * t.m, t.s), (t.v, t.vs)]).Nodup) {P : Ptr} {j k : ℕ}
    (hj : j < count t.mc nthr) (hk : k < count t.mc nthr) {i i' p p' : ℕ} (hi : i < t.v) (hi' : i' < t.v) (hp : p < t.r * t.m) (hp' : p' < t.r * t.m)
    (h1 : t.mb + j * blockSize t.mc nthr ≤ hcCol t.m p) (h2 : hcCol t.m p < t.mb + j * blockSize t.mc nthr + blockLen t.mc nthr j)
    (h1' : t.mb + k * blockSize t.mc nthr ≤ hcCol t.m p') (h2' : hcCol t.m p' < t.mb + k * blockSize t.mc nthr + blockLen t.mc nthr k)
    (he : t.at P i p = t.at P i' p') : j = k := by
  replace he := Ptr.add_inj.1 he
  have e1 : ((i : ℕ) : ℤ) * t.vs ∈ offs [(t.v, t.vs)] := mem_offs_cons.2 ⟨i, hi, 0, by simp [offs], by ring⟩
  have e2 : ((i' : ℕ) : ℤ) * t.vs ∈ offs [(t.v, t.vs)] := mem_offs_cons.2 ⟨i', hi', 0, by simp [offs], by ring⟩
  have := (offs_cons_inj hnd hp hp' e1 e2 he).1
  subst this
  obtain ⟨y, hy⟩ := Nat.exists_eq_add_of_le (show t.mb ≤ hcCol t.m p by omega)
  exact block_unique hn ht hj hk (l := y) (by omega) (by omega) (by omega) (by omega)

end FFTW.Props

namespace FFTW.Registered
open Tensor Spec DftS Genfft Planner Api RowMajor Thr
open RdftS (KHc2hc)
open MapFlags (U32)

section
variable [CLib]

/-- the solvers that `X(init_threads)` adds (threads/conf.c:24-31) or puts beside the single-threaded ones by its hooks (threads/api.c:26-30;
dft/dftw-generic.c:194-197, dft/dftw-genericbuf.c:214-217, dft/dftw-direct.c:317-321, dft/dftw-directsq.c:149-153, rdft/hc2hc-direct.c:265-268,
rdft/hc2hc-generic.c:313-316) -/
inductive Threaded (S : Sched) (cexp : ℕ → ℤ → ℝ × ℝ) (mp : Magic) : Solver → Prop
  | dft (d : ℤ) (hd : d ∈ [1, -1]) (taste : Taste) : Threaded S cexp mp (DftS.thrVrankGeq1 S d [1, -1] taste)
  | rdft (d : ℤ) (hd : d ∈ [1, -1]) (taste : Taste) : Threaded S cexp mp (RdftS.thrVrankGeq1 S d [1, -1] taste)
  | rdft2 (d : ℤ) (hd : d ∈ [1, -1]) (taste : Taste) : Threaded S cexp mp (Rdft2S.thrVrankGeq1 S d [1, -1] taste)
  | ctGeneric (dec : Dec) (hd : dec = .dit ∨ dec = .dif) (taste : Taste) (taste' : TwP → Flags → Bool) :
      Threaded S cexp mp (thrCt S 0 dec (dftwGeneric cexp dec taste') taste)
  | ctGenericbuf (r : ℤ) (hr : r ∈ [-1, -2, -4, -8, -16, -32, -64]) (b : ℕ) (hb : b ∈ [4, 8, 16, 32, 64]) (taste : Taste) (taste' : TwP → Flags → Bool) :
      Threaded S cexp mp (thrCt S r .dit (dftwGenericbuf cexp b taste') taste)
  | t1 (n : ℕ) (hn : n ∈ t1) (taste : Taste) (taste' : TwP → Flags → Bool) :
      Threaded S cexp mp (thrCt S n .dit (dftwDirect cexp (twiddleCodelet mp loadAll true n 0 0) taste') taste)
  | t1buf (n : ℕ) (hn : n ∈ Registered.t1) (taste : Taste) (taste' : TwP → Flags → Bool) :
      Threaded S cexp mp (thrCt S n .dit (dftwDirectbuf cexp (twiddleCodelet mp loadAll true n 0 0) taste') taste)
  | t2 (n : ℕ) (hn : n ∈ t2) (taste : Taste) (taste' : TwP → Flags → Bool) :
      Threaded S cexp mp (thrCt S n .dit (dftwDirect cexp (twiddleCodelet mp log3Policy true n 0 0) taste') taste)
  | t2buf (n : ℕ) (hn : n ∈ Registered.t2) (taste : Taste) (taste' : TwP → Flags → Bool) :
      Threaded S cexp mp (thrCt S n .dit (dftwDirectbuf cexp (twiddleCodelet mp log3Policy true n 0 0) taste') taste)
  | q1 (n : ℕ) (hn : n ∈ q1) (taste : Taste) : Threaded S cexp mp (thrCt S n .difT (dftwDirectsq cexp (twidsqCodelet mp loadAll n 0 0 0)) taste)
  | hc2hcGeneric (taste : Taste) (taste' : HcP → Flags → Bool) : Threaded S cexp mp (RdftS.thrHc2hc S 0 (RdftS.hc2hcGeneric cexp taste') taste)
  | hc2hcDirect (c : KHc2hc) (hc : HcCodelet mp c) (bufferedp : Bool) (taste : Taste) (taste' : HcP → Flags → Bool) :
      Threaded S cexp mp (RdftS.thrHc2hc S c.radix (RdftS.hc2hcDirect cexp c bufferedp taste') taste)

/-- C55, C04: every solver added by `X(init_threads)` is sound, whatever the schedule -/
theorem C55_threaded_solvers (S : Sched) {cexp : ℕ → ℤ → ℝ × ℝ} (hc : ExactCexp cexp) {mp : Magic} (hmp : Props.MagicOk mp) (s : Solver)
    (h : Threaded S cexp mp s) : s.Sound := by
  cases h with
  | dft d _ t => exact Props.C55_dft_loop S d _ t
  | rdft d _ t => exact Props.C55_rdft_loop S d _ t
  | rdft2 d _ t => exact Props.C55_rdft2_loop S d _ t
  | ctGeneric dec _ t t' => exact thrCt_sound S _ _ _ _ (dftwGeneric_sound hc dec t')
  | ctGenericbuf r _ b _ t t' => exact thrCt_sound S _ _ _ _ (dftwGenericbuf_sound hc b t')
  | t1 n hn t t' => exact thrCt_sound S _ _ _ _ (dftwDirect_sound cexp _ _ (Props.C47_twiddle_codelet hc mp hmp _ n (Or.inl ⟨rfl, by revert n; decide⟩) true 0 0) t')
  | t1buf n hn t t' => exact thrCt_sound S _ _ _ _ (dftwDirectbuf_sound cexp _ _ (Props.C47_twiddle_codelet hc mp hmp _ n (Or.inl ⟨rfl, by revert n; decide⟩) true 0 0) t')
  | t2 n hn t t' => exact thrCt_sound S _ _ _ _ (dftwDirect_sound cexp _ _ (Props.C47_twiddle_codelet hc mp hmp _ n (Or.inr ⟨Or.inr rfl, by revert n; decide⟩) true 0 0) t')
  | t2buf n hn t t' => exact thrCt_sound S _ _ _ _ (dftwDirectbuf_sound cexp _ _ (Props.C47_twiddle_codelet hc mp hmp _ n (Or.inr ⟨Or.inr rfl, by revert n; decide⟩) true 0 0) t')
  | q1 n hn t => exact thrCt_sound S _ _ _ _ (dftwDirectsq_sound cexp _ (Props.C47_twidsq_codelet hc mp hmp _ n (Or.inl ⟨rfl, by revert n; decide⟩) 0 0))
  | hc2hcGeneric t t' => exact RdftS.thrHc2hc_sound S _ _ _ (RdftS.hc2hcGeneric_sound hc t')
  | hc2hcDirect c h b t t' => exact RdftS.thrHc2hc_sound S _ _ _ (RdftS.hc2hcDirect_sound (h.sound hmp hc) b t')

/-- the whole library as modelled: the standard configuration, and the threaded solvers for any schedules -/
inductive Library (cexp : ℕ → ℤ → ℝ × ℝ) (mp : Magic) (szR : ℕ) : Solver → Prop
  | dft (s : Solver) (h : DftStandard cexp mp szR s) : Library cexp mp szR s
  | rdft (s : Solver) (h : RdftStandard mp cexp szR s) : Library cexp mp szR s
  | threads (S : Sched) (s : Solver) (h : Threaded S cexp mp s) : Library cexp mp szR s

/-- C04, C55 -/
theorem C04_library {cexp : ℕ → ℤ → ℝ × ℝ} (hc : ExactCexp cexp) {mp : Magic} (hmp : Props.MagicOk mp) (szR : ℕ) (s : Solver)
    (h : Library cexp mp szR s) : s.Sound := by
  cases h with
  | dft _ h => exact C04_standard_dft_solvers hc hmp szR s h
  | rdft _ h => exact C04_standard_rdft_solvers hmp hc szR s h
  | threads S _ h => exact C55_threaded_solvers S hc hmp s h

/-- **C55**: a user who calls `fftw_plan_many_dft` in two programs, with different numbers of threads (`st0.nthr`), different solvers, wisdom and schedules, and
executes both plans on the same input, finds the same numbers in the output arrays -/
theorem C55_same_results {cexp : ℕ → ℤ → ℝ × ℝ} (hc : ExactCexp cexp) {mp : Magic} (hmp : Props.MagicOk mp) {szR : ℕ}
    (env env' : Env) (hs : ∀ d ∈ env.slvdescs, Library cexp mp szR d.slv) (hs' : ∀ d ∈ env'.slvdescs, Library cexp mp szR d.slv)
    {n n' : ℕ} {tl tl' : ℝ} {flags flags' : U32} {a : Many} {st0 st0' st1 st1' : PSt} {ap ap' : ApiPlan}
    (h : planManyDft env n tl flags a st0 = .ok (some ap, st0')) (h' : planManyDft env' n' tl' flags' a st1 = .ok (some ap', st1')) (ok : ManyOk a)
    (ho : (manyB a).OutInj) (hi : (manyB a).InInj) (hsep : Separate (manyB a) a.inp a.out) (st : State) (hbi : a.inp.blk < st.next) (hbo : a.out.blk < st.next) :
    ∀ b k, Box (manyB a).v b → Box (manyB a).n k →
      celt (execute ap st).mem a.out ((manyB a).out b k) = celt (execute ap' st).mem a.out ((manyB a).out b k) := by
  intro b k hb hk
  have h1 := (C01_many_dft env (fun d hd => C04_library hc hmp szR _ (hs d hd)) h ok ho (fun _ => hi) hsep st hbi hbo).1 b k hb hk
  have h2 := (C01_many_dft env' (fun d hd => C04_library hc hmp szR _ (hs' d hd)) h' ok ho (fun _ => hi) hsep st hbi hbo).1 b k hb hk
  rw [h1, h2]

end
end FFTW.Registered
