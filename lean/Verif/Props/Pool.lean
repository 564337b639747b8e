import Verif.Proofs.Pool11
import Verif.Proofs.Spawn
import Verif.Props.Spawn
/-!
# C31: the thread pool

`progs` are the programs of the application threads, `Exec progs n s` says that `s` is reachable from the state after `fftw_init_threads` in
`n` steps of any threads in any order.
-/

namespace FFTW.Props
open FFTW.Pool FFTW.Spawn

variable {progs : List Prog} {n : ℕ} {s : Sys}

/-- C31: no thread ever accesses a worker object or work array that no longer exists, or unlocks a mutex it does not hold. -/
theorem C31_no_fault (hv : ∀ p ∈ progs, p.Valid) (h : Exec progs n s) (t : Tid) (fresh : ℕ) : step t fresh s ≠ .fault := by
  obtain ⟨g, I⟩ := h.inv hv
  intro hf
  have := step_good I t fresh
  rw [hf] at this
  exact this

theorem step_nm {s s' : Sys} {t : Tid} {fresh : ℕ} (hs : step t fresh s = .next s') : s'.nm = s.nm := by
  have hsp : ∀ st lm k body, spawn t s st lm k body = .next s' → s'.nm = s.nm := by
    intro st lm k body h
    unfold spawn at h
    split at h <;> cases h <;> rfl
  unfold step at hs
  split at hs
  · cases hs
  rename_i f st hst
  cases f <;> simp only [stepKill] at hs
  case app p =>
    cases p <;> simp only [stepCode] at hs
    · cases hs
    · split at hs
      · cases hs
      · exact hsp _ _ _ _ hs
    · split at hs <;> cases hs; rfl
  case run J i p =>
    cases p <;> simp only [stepCode] at hs
    · cases hs; rfl
    · exact hsp _ _ _ _ hs
    · cases hs
  case deqPop J r i q =>
    cases q <;> simp only [stepJob] at hs
    · cases hs; rfl
    · split at hs <;> cases hs; rfl
  all_goals
    first
      | (split at hs <;> [skip; cases hs]
         simp only [stepWorker] at hs)
      | simp only [stepJob] at hs
      | skip
    repeat' split at hs
    all_goals first
      | cases hs; done
      | (cases hs; rfl)

theorem _root_.FFTW.Pool.Exec.nm (h : Exec progs n s) : s.nm = progs.length := by
  induction h with
  | start => rfl
  | step t fresh he hs ih => rw [← ih]; exact step_nm hs

theorem starts_length (l : List Event) (J i : ℕ) : (starts l J i).length = ns l J i := by
  unfold starts ns
  rw [List.countP_eq_length_filter]
  congr 2

theorem mem_starts {l : List Event} {J i : ℕ} {e : Event} (h : e ∈ starts l J i) : ∃ d, e = .start J i d ∧ e ∈ l := by
  unfold starts at h
  obtain ⟨h1, h2⟩ := List.mem_filter.1 h
  cases e <;> simp at h2
  obtain ⟨rfl, rfl⟩ := h2
  exact ⟨_, rfl, h1⟩

/-- C31: when `spawn_loop` returns, `proc` has been called — and has returned — exactly once for every block of the partition of the loop,
with that block as its argument, and for nothing else.  (`l` is the history up to the return.) -/
theorem C31_runs_exactly_once (hv : ∀ p ∈ progs, p.Valid) (h : Exec progs n s) {J : ℕ} {l : List Event} (hr : Event.ret J :: l <:+ s.log) :
    ∃ (loopmax nthr : ℤ) (ds : List SpawnData), Event.enter J loopmax nthr ∈ l ∧ spawnLoop loopmax nthr = some ds ∧ RanOnce l J ds := by
  obtain ⟨g, I⟩ := h.inv hv
  obtain ⟨ds, hi, ha, lm, k, he⟩ := I.log.ret J l hr
  have hsub : ∀ e, e ∈ l → e ∈ s.log := fun e h => hr.subset (List.mem_cons_of_mem _ h)
  have hsp := I.log.ent J lm k (hsub _ he)
  refine ⟨lm, k, ds, he, by rw [← hsp.1, hi], ?_, ?_⟩
  · intro i d hd
    have hlt : i < ds.length := by
      obtain ⟨h, _⟩ := List.getElem?_eq_some_iff.1 hd; exact h
    have h1 := (ha i).1 hlt
    refine ⟨?_, h1.2⟩
    have h2 := starts_length l J i
    rw [h1.1] at h2
    obtain ⟨e, he⟩ := List.length_eq_one_iff.1 h2
    rw [he]
    obtain ⟨d', rfl, hm⟩ := mem_starts (l := l) (J := J) (i := i) (e := e) (by rw [he]; simp)
    obtain ⟨ds', h3, h4⟩ := I.log.blk J i d' (hsub _ hm)
    rw [hi] at h3
    obtain rfl := Option.some.inj h3
    rw [hd] at h4
    obtain rfl := Option.some.inj h4
    rfl
  · intro i hi'
    have h1 := (ha i).2 hi'
    refine ⟨?_, h1.2⟩
    apply List.eq_nil_of_length_eq_zero
    rw [starts_length]; exact h1.1

/-- C31 with C30: when `spawn_loop(loopmax, …)` returns, every iteration `0 ≤ k < loopmax` belongs to exactly one block `i` of the call, on
which `proc` was started exactly once and from which it has returned. -/
theorem C31_every_iteration (hv : ∀ p ∈ progs, p.Valid) (h : Exec progs n s) {J : ℕ} {l : List Event} (hr : Event.ret J :: l <:+ s.log) :
    ∃ (loopmax nthr : ℤ), Event.enter J loopmax nthr ∈ l ∧
      (2 * loopmax ≤ 2147483647 → loopmax + nthr ≤ 2147483647 → ∀ k : ℤ, 0 ≤ k → k < loopmax →
        ∃ (i : ℕ) (d : SpawnData), d.min ≤ k ∧ k < d.max ∧ starts l J i = [.start J i d] ∧ Event.finish J i ∈ l ∧
          ∀ i' d', Event.start J i' d' ∈ l → d'.min ≤ k → k < d'.max → i' = i) := by
  obtain ⟨lm, nt, ds, he, hds, h1, h2⟩ := C31_runs_exactly_once hv h hr
  refine ⟨lm, nt, he, ?_⟩
  intro hb1 hb2 k hk0 hk
  have hpre : 0 ≤ lm ∧ 0 < nt := by
    by_contra hc
    unfold spawnLoop at hds
    rw [if_pos (by omega)] at hds
    cases hds
  obtain ⟨ds', hds', hflat, hrng, _, _⟩ := C30_partition lm nt hpre.1 hpre.2 hb1 hb2
  rw [hds] at hds'
  obtain rfl := Option.some.inj hds'
  have hmem : k ∈ ds.flatMap fun d => (List.range (d.max - d.min).toNat).map fun k : ℕ => d.min + (k : Int) := by
    rw [hflat]
    exact List.mem_map.2 ⟨k.toNat, List.mem_range.2 (by omega), by omega⟩
  obtain ⟨d, hd, hkd⟩ := List.mem_flatMap.1 hmem
  obtain ⟨j, hj, rfl⟩ := List.mem_map.1 hkd
  rw [List.mem_range] at hj
  obtain ⟨i, hi, hid⟩ := List.mem_iff_getElem.1 hd
  have hid' : ds[i]? = some d := by rw [List.getElem?_eq_getElem hi, hid]
  obtain ⟨h3, h4⟩ := h1 i d hid'
  refine ⟨i, d, by omega, by omega, h3, List.count_pos_iff.1 (by omega), ?_⟩
  intro i' d' hst hlo hhi
  have hi' : i' < ds.length := by
    by_contra hc
    have := (h2 i' (by omega)).1
    have hm : Event.start J i' d' ∈ starts l J i' := by
      unfold starts; exact List.mem_filter.2 ⟨hst, by simp⟩
    rw [this] at hm; cases hm
  have h5 := (h1 i' ds[i'] (List.getElem?_eq_getElem hi')).1
  have hm : Event.start J i' d' ∈ starts l J i' := by
    unfold starts; exact List.mem_filter.2 ⟨hst, by simp⟩
  rw [h5] at hm
  have hd' : d' = ds[i'] := by simpa using hm
  -- two blocks containing the same iteration would duplicate it in the concatenation
  by_contra hne
  have hnd : (ds.flatMap fun d => (List.range (d.max - d.min).toNat).map fun k : ℕ => d.min + (k : Int)).Nodup := by
    rw [hflat]
    exact List.Nodup.map (fun a b h => by simpa using h) List.nodup_range
  have hpw := (List.nodup_flatMap.1 hnd).2
  rw [List.pairwise_iff_getElem] at hpw
  have hin : ∀ (a : ℕ) (ha : a < ds.length), (ds[a]).min ≤ d.min + (j : ℤ) → d.min + (j : ℤ) < (ds[a]).max →
      d.min + (j : ℤ) ∈ (List.range ((ds[a]).max - (ds[a]).min).toNat).map fun k : ℕ => (ds[a]).min + (k : Int) := by
    intro a ha h1 h2
    exact List.mem_map.2 ⟨(d.min + (j : ℤ) - (ds[a]).min).toNat, List.mem_range.2 (by omega), by omega⟩
  have ha := hin i hi (by rw [hid]; omega) (by rw [hid]; omega)
  have hb := hin i' hi' (by rw [← hd']; omega) (by rw [← hd']; omega)
  rcases Nat.lt_or_gt_of_ne hne with hlt | hlt
  · exact hpw i' i hi' hi hlt hb ha
  · exact hpw i i' hi hi' hlt ha hb

/-- C31: `proc` returns from a block only after having been started on it, once. -/
theorem C31_finish_after_start (hv : ∀ p ∈ progs, p.Valid) (h : Exec progs n s) {J i : ℕ} {l : List Event} (hr : Event.finish J i :: l <:+ s.log) :
    ∃ d, starts l J i = [.start J i d] := by
  obtain ⟨g, I⟩ := h.inv hv
  have h1 := I.log.fin J i l hr
  have h2 := starts_length l J i
  rw [h1] at h2
  obtain ⟨e, he⟩ := List.length_eq_one_iff.1 h2
  obtain ⟨d, rfl, _⟩ := mem_starts (l := l) (J := J) (i := i) (e := e) (by rw [he]; simp)
  exact ⟨d, he⟩

theorem isList_reach {cdr : ℕ → Option ℕ} {l : List ℕ} : ∀ {h : Option ℕ}, IsList cdr h l → ∀ w ∈ l, ∃ k : ℕ, (fun o : Option ℕ => o.bind cdr)^[k] h = some w := by
  induction l with
  | nil => intro h _ w hw; cases hw
  | cons a l ih =>
    intro h hl w hw
    obtain ⟨rfl, hl⟩ := hl
    rcases List.mem_cons.1 hw with rfl | hw
    · exact ⟨0, rfl⟩
    · obtain ⟨k, hk⟩ := ih hl w hw
      exact ⟨k + 1, by rw [Function.iterate_succ_apply]; exact hk⟩

/-- C31: whenever no application thread is inside a library call, every worker that exists is back in the idle queue, with nothing pending. -/
theorem C31_workers_return (hv : ∀ p ∈ progs, p.Valid) (h : Exec progs n s) (hq : s.quiet = true) (w : ℕ) (hw : s.alive w = true) : Idle s w := by
  obtain ⟨g, I⟩ := h.inv hv
  have hc : s.cleaning = false := by
    cases hc : s.cleaning with
    | false => rfl
    | true =>
      obtain ⟨_, _, t, f, st, h1, h2, h3⟩ := I.cln hc
      have hkf : f = .killLoop ∨ (∃ w, f = .killUp w) ∨ (∃ w, f = .killDown w) ∨ ∃ w, f = .killFree w := by
        have := h3.2.2
        cases f <;> simp at this ⊢
      obtain ⟨m, p, rfl, rfl, _⟩ := I.kill_top h2 hkf
      have hm : m < s.nm := by
        by_contra hm
        rw [I.mst m (by omega)] at h2; cases h2
      simp only [Sys.quiet, List.all_eq_true, List.mem_range] at hq
      have := hq m hm
      rw [h2] at this
      rcases hkf with rfl | ⟨w, rfl⟩ | ⟨w, rfl⟩ | ⟨w, rfl⟩ <;> simp at this
  have hph := I.quiet hq
  have hwi := I.wrk w
  rcases I.idle hph hc w with ho | ho <;> simp only [WInv, ho] at hwi
  · rw [hwi.1] at hw; cases hw
  · exact ⟨hwi.2.2.2, hwi.2.1, hwi.2.2.1, isList_reach I.lst w ((I.mem w).2 ho)⟩

/-- C31: the pool never deadlocks: if no thread can move, the application has finished. -/
theorem C31_no_deadlock (hv : ∀ p ∈ progs, p.Valid) (h : Exec progs n s) (hb : ∀ t fresh, step t fresh s = .blocked) (m : ℕ) (hm : m < progs.length) :
    s.stack (.master m) = [.app .done] := by
  obtain ⟨g, I⟩ := h.inv hv
  have hnm := h.nm
  exact (I.stuck hb).1 m (by omega)

/-- C31: whatever the scheduler does, the application finishes: the number of steps is bounded by a function of the programs. -/
theorem C31_terminates (hv : ∀ p ∈ progs, p.Valid) (h : Exec progs n s) : n ≤ (progs.map Prog.cost).sum := by
  obtain ⟨m, _, h⟩ := h.bound hv
  omega

/-- C31: when `fftw_cleanup_threads` returns, all worker threads have ended and all worker objects are gone. -/
theorem C31_cleanup (hv : ∀ p ∈ progs, p.Valid) (h : Exec progs n s) {t : Tid} {fresh : ℕ} {s' : Sys} (hs : step t fresh s = .next s')
    (hc : s.cleaning = true) (hc' : s'.cleaning = false) (w : ℕ) : s'.alive w = false ∧ s'.stack (.wk w) = [] := by
  obtain ⟨g, I⟩ := h.inv hv
  unfold step at hs
  split at hs
  · cases hs
  rename_i f st hst
  have hno : ∀ x, jphase f = some x → False := by
    rintro ⟨J, r, φ⟩ hj
    have := I.active (I.top hst hj).1
    rw [hc] at this; cases this
  have hsp : ∀ st lm k body, spawn t s st lm k body = .next s' → False := by
    intro st lm k body h
    unfold spawn at h
    split at h <;> cases h <;> (have h2 : s.cleaning = false := hc'; rw [hc] at h2; cases h2)
  cases f <;> simp only [stepCode, stepKill] at hs
  case app p =>
    cases p <;> simp only [stepCode] at hs
    · cases hs
    · rw [if_pos hc] at hs; cases hs
    · split at hs <;> cases hs
      cases hc'
  case run J i p =>
    cases p <;> simp only [stepCode] at hs
    · cases hs; have h2 : s.cleaning = false := hc'; rw [hc] at h2; cases h2
    · exact (hsp _ _ _ _ hs).elim
    · cases hs
  case killLoop =>
    split at hs
    · rename_i hh
      split at hs <;> cases hs
      have := (inv_killEnd I hst hh).1 w
      refine ⟨this.1, ?_⟩
      obtain ⟨m, p, rfl, _⟩ := I.kill_top hst (.inl rfl)
      exact (put_stack_ne s (t := .master m) (t' := .wk w) (by simp) st).trans this.2
    · split at hs <;> cases hs
      have h2 : s.cleaning = false := hc'; rw [hc] at h2; cases h2
  case killUp | killDown | killFree =>
    split at hs <;> cases hs
    have h2 : s.cleaning = false := hc'; rw [hc] at h2; cases h2
  case wait | fetch | signal | exit =>
    split at hs <;> [skip; cases hs]
    simp only [stepWorker] at hs
    repeat' split at hs
    all_goals first
      | cases hs; done
      | (cases hs; have h2 : s.cleaning = false := hc'; rw [hc] at h2; cases h2)
  all_goals exact (hno _ rfl).elim

/-! ## Non-vacuity -/

/-- `proc` with a nested parallel loop -/
def exBody : SpawnData → Prog := fun d => if d.thrNum = 0 then .loop 3 2 (fun _ => .done) .done else .done

theorem exSpawn1 : spawnLoop 5 4 = some [⟨0, 2, 0⟩, ⟨2, 4, 1⟩, ⟨4, 5, 2⟩] := by
  simp [spawnLoop, ck32]
  iterate 4 (rw [blocks]; simp [blockOf, ck32])
theorem exSpawn2 : spawnLoop 3 2 = some [⟨0, 2, 0⟩, ⟨2, 3, 1⟩] := by
  simp [spawnLoop, ck32]
  iterate 3 (rw [blocks]; simp [blockOf, ck32])

/-- two application threads: nested loops, a cleanup, another loop; and concurrently another loop -/
def exProgs : List Prog := [.loop 5 4 exBody (.cleanup (.loop 3 2 (fun _ => .done) .done)), .loop 3 2 (fun _ => .done) .done]

theorem exValid : ∀ p ∈ exProgs, p.Valid := by
  have h2 : (Prog.loop 3 2 (fun _ => .done) .done).Valid := ⟨⟨_, exSpawn2, fun d _ => trivial⟩, trivial⟩
  have hb : ∀ d, (exBody d).Inner := by
    intro d
    unfold exBody
    split
    · exact ⟨⟨_, exSpawn2, fun d _ => trivial⟩, trivial⟩
    · trivial
  intro p hp
  simp only [exProgs, List.mem_cons, List.not_mem_nil, or_false] at hp
  rcases hp with rfl | rfl
  · exact ⟨⟨_, exSpawn1, fun d _ => hb d⟩, h2⟩
  · exact h2

/-- let threads move in a given order -/
def sched : List (Tid × ℕ) → Sys → Option Sys
  | [], s => some s
  | (t, fresh) :: l, s => match step t fresh s with
    | .next s' => sched l s'
    | _ => none

theorem exec_sched {progs : List Prog} {l : List (Tid × ℕ)} : ∀ {n : ℕ} {s s' : Sys}, Exec progs n s → sched l s = some s' → Exec progs (n + l.length) s' := by
  induction l with
  | nil => intro n s s' h hs; cases hs; exact h
  | cons a l ih =>
    obtain ⟨t, fresh⟩ := a
    intro n s s' h hs
    unfold sched at hs
    split at hs
    · rename_i s1 h1
      have := ih (.step t fresh h h1) hs
      rwa [List.length_cons, Nat.add_comm l.length, ← Nat.add_assoc]
    · cases hs

/-- one application thread, one parallel loop with two blocks -/
def exProgs1 : List Prog := [.loop 3 2 (fun _ => .done) .done]
/-- … after it has entered `spawn_loop` -/
def exS1 : Sys :=
  let ds : List SpawnData := [⟨0, 2, 0⟩, ⟨2, 3, 1⟩]
  let s := init exProgs1
  { s.put (.master 0) [.dist 0 ⟨ds, fun _ => .done⟩ 0, .app .done] with
      jobs := Function.update s.jobs 0 (some ⟨ds, fun _ => .done⟩), nextJob := 1, log := [.enter 0 3 2] }

theorem exStep1 : step (.master 0) 0 (init exProgs1) = .next exS1 := by
  show spawn (.master 0) (init exProgs1) [.app .done] 3 2 (fun _ => .done) = _
  unfold spawn
  rw [exSpawn2]
  rfl

/-- the application creates worker 7, both run their block, the worker is collected and queued, the call returns -/
def exSched : List (Tid × ℕ) :=
  List.replicate 8 (.master 0, 7) ++ [(.wk 7, 0), (.wk 7, 0), (.master 0, 0), (.wk 7, 0), (.wk 7, 0)] ++ List.replicate 6 (.master 0, 0)

theorem exRun : ∃ s, Exec exProgs1 20 s ∧ s.quiet = true ∧ s.alive 7 = true ∧
    s.log = [.ret 0, .finish 0 0, .finish 0 1, .start 0 0 ⟨0, 2, 0⟩, .start 0 1 ⟨2, 3, 1⟩, .enter 0 3 2] := by
  have h : ∃ s, sched exSched exS1 = some s ∧ s.quiet = true ∧ s.alive 7 = true ∧
    s.log = [.ret 0, .finish 0 0, .finish 0 1, .start 0 0 ⟨0, 2, 0⟩, .start 0 1 ⟨2, 3, 1⟩, .enter 0 3 2] := ⟨_, rfl, rfl, rfl, rfl⟩
  obtain ⟨s, h1, h2⟩ := h
  exact ⟨s, exec_sched (.step _ _ .start exStep1) h1, h2⟩

/-- every execution can be continued until the application has finished -/
theorem C31_completes (hv : ∀ p ∈ progs, p.Valid) (h : Exec progs n s) : ∃ n' s', n ≤ n' ∧ Exec progs n' s' ∧
    (∀ m, m < progs.length → s'.stack (.master m) = [.app .done]) ∧ ∀ w, s'.alive w = true → Idle s' w := by
  by_contra hc
  push Not at hc
  have key : ∀ k, ∃ s', Exec progs (n + k) s' := by
    intro k
    induction k with
    | zero => exact ⟨s, h⟩
    | succ k ih =>
      obtain ⟨s', h'⟩ := ih
      by_cases hb : ∀ t fresh, step t fresh s' = .blocked
      · have hd := C31_no_deadlock hv h' hb
        obtain ⟨w, hw, hi⟩ := hc _ _ (by omega) h' hd
        refine absurd (C31_workers_return hv h' ?_ w hw) hi
        simp only [Sys.quiet, List.all_eq_true, List.mem_range]
        intro m hm
        rw [hd m (by rwa [h'.nm] at hm)]
      · push Not at hb
        obtain ⟨t, fresh, hb⟩ := hb
        have := C31_no_fault hv h' t fresh
        cases hs : step t fresh s' with
        | blocked => exact absurd hs hb
        | fault => exact absurd hs this
        | next s2 => exact ⟨s2, .step t fresh h' hs⟩
  obtain ⟨s', h'⟩ := key ((progs.map Prog.cost).sum + 1)
  have := C31_terminates hv h'
  omega

end FFTW.Props
