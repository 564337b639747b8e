import Verif.Proofs.MpiPlanner4
import Verif.Model.MpiConf

/-! planning in step: the registered solvers -/

namespace FFTW.Mpi
open FFTW.Planner MPlanner
variable [Tensor.CLib]

theorem fits_needLoc {α : Type} {c : Comm} {n : ℕ} {p : ℕ → Option Problem} {m : FMod} {k : (ℕ → Plan) → MMk (Option α)} (h1 : n = c.length) (h2 : m.nthr = none)
    (h3 : ∀ r, (k r).Fits c) : (MMk.needLoc n p m k).Fits c := by
  refine ⟨h1, h2, fun r => ?_⟩
  cases r with
  | none => trivial
  | some r => exact h3 r

theorem fits_needGrp {α : Type} {c : Comm} {n : ℕ} {p : ℕ → Option MProblem} {m : FMod} {k : (ℕ → MPlan) → MMk (Option α)} (h1 : groupsOk c n p) (h2 : m.nthr = none)
    (h3 : ∀ i < n, ∀ x, p i = some x → commOf x ≠ [] ∧ (commOf x).Nodup) (h4 : ∀ r, (k r).Fits c) : (MMk.needGrp n p m k).Fits c := by
  refine ⟨h1, h2, h3, fun r => ?_⟩
  cases r with
  | none => trivial
  | some r => exact h4 r

theorem fits_need {α : Type} {c : Comm} {x : MProblem} {m : FMod} {k : MPlan → MMk (Option α)} (hc : c ≠ []) (hn : c.Nodup) (h1 : commOf x = c) (h2 : m.nthr = none)
    (h4 : ∀ r, (k r).Fits c) : (MMk.need x m k).Fits c := by
  refine fits_needGrp ?_ h2 ?_ fun r => h4 _
  · intro i hi y e
    obtain rfl := Option.some.inj e
    rw [h1]
    exact ⟨fun w hw => hw, fun j hj => by omega⟩
  · intro i hi y e
    obtain rfl := Option.some.inj e
    rw [h1]
    exact ⟨hc, hn⟩

theorem fits_post {α : Type} {p : TransP} {I O : ℕ → Ptr} {k : Post → MMk (Option α)} (h : ∀ r, (k r).Fits p.comm) : (mkplansPost p I O k).Fits p.comm := by
  unfold mkplansPost
  exact fits_needLoc rfl rfl fun _ => fits_needLoc rfl rfl fun _ => fits_needLoc rfl rfl fun _ => h _

theorem fits_trans {mk : TransP → Flags → MMk (Option MPlan)} (h : ∀ p fl, p.comm ≠ [] → p.comm.Nodup → (mk p fl).Fits p.comm) : (transSolver mk).Fits := by
  intro p fl hc hn
  cases p with
  | transpose p => exact h p fl hc hn
  | dft p => trivial
  | rdft p => trivial

theorem fits_dft {mk : MDftP → Flags → MMk (Option MPlan)} (h : ∀ p fl, p.comm ≠ [] → p.comm.Nodup → (mk p fl).Fits p.comm) : (dftSolver mk).Fits := by
  intro p fl hc hn
  cases p with
  | transpose p => trivial
  | rdft p => trivial
  | dft p => exact h p fl hc hn

theorem fits_rdft {mk : MRdftP → Flags → MMk (Option MPlan)} (h : ∀ p fl, p.comm ≠ [] → p.comm.Nodup → (mk p fl).Fits p.comm) : (rdftSolver mk).Fits := by
  intro p fl hc hn
  cases p with
  | transpose p => trivial
  | dft p => trivial
  | rdft p => exact h p fl hc hn

theorem alltoall_fits (copyIn : Bool) : (transposeAlltoall copyIn).Fits := by
  refine fits_trans fun p fl hc hn => ?_
  unfold alltoallMk
  simp only
  split
  · trivial
  · split
    · exact fits_post fun _ => trivial
    · exact fits_needLoc rfl rfl fun _ => fits_post fun _ => trivial

theorem pairwise_fits (junk : TransP → ℕ → List ℤ) (preserve : Bool) : (transposePairwise junk preserve).Fits := by
  refine fits_trans fun p fl hc hn => ?_
  unfold pairwiseMk
  simp only
  split
  · trivial
  · split
    · exact fits_needLoc rfl rfl fun _ => fits_post fun _ => trivial
    · exact fits_post fun _ => trivial

theorem split_sub {c : Comm} {f : ℕ → ℕ} {x w : ℕ} (h : w ∈ c.split f x) : ∃ me < c.length, f me = x ∧ w = c.at me := by
  unfold Comm.split at h
  obtain ⟨me, h1, rfl⟩ := List.mem_map.1 h
  rw [List.mem_filter] at h1
  exact ⟨me, List.mem_range.1 h1.1, by simpa using h1.2, rfl⟩

theorem mem_split {c : Comm} {f : ℕ → ℕ} {x me : ℕ} (h : me < c.length) (hx : f me = x) : c.at me ∈ c.split f x :=
  List.mem_map.2 ⟨me, List.mem_filter.2 ⟨List.mem_range.2 h, by simpa using hx⟩, rfl⟩

theorem split_nodup {c : Comm} (hn : c.Nodup) (f : ℕ → ℕ) (x : ℕ) : (c.split f x).Nodup := by
  unfold Comm.split
  refine List.Nodup.map_on (fun a ha b hb e => ?_) (List.nodup_range.filter _)
  exact at_inj hn (List.mem_range.1 (List.mem_filter.1 ha).1) (List.mem_range.1 (List.mem_filter.1 hb).1) e

/-- groups made by `MPI_Comm_split` are disjoint -/
theorem groups_split {c : Comm} (hn : c.Nodup) {f : ℕ → ℕ} {n : ℕ} {p : ℕ → Option MProblem} (h : ∀ x y, p x = some y → commOf y = c.split f x) : groupsOk c n p := by
  intro i hi x e
  rw [h i x e]
  refine ⟨fun w hw => ?_, fun j hj y e2 w hw hw2 => ?_⟩
  · obtain ⟨me, h1, _, rfl⟩ := split_sub hw
    exact at_mem h1
  · rw [h j y e2] at hw2
    obtain ⟨a, a1, a2, a3⟩ := split_sub hw
    obtain ⟨b, b1, b2, b3⟩ := split_sub hw2
    have := at_inj hn a1 b1 (a3.symm.trans b3)
    subst this
    omega

theorem recurseTr_comm {p : TransP} {r m : ℕ} {I : ℕ → Ptr} {x : ℕ} {y : MProblem} (h : recurseTr p r m I x = some y) : commOf y = p.comm.split (fun me => me / r) x := by
  unfold recurseTr at h
  simp only at h
  split at h
  · obtain rfl := Option.some.inj h; rfl
  · simp at h

theorem recurseTm_comm {p : TransP} {r m : ℕ} {I : ℕ → Ptr} {x : ℕ} {y : MProblem} (h : recurseTm p r m I x = some y) : commOf y = p.comm.split (fun me => me % r) x := by
  unfold recurseTm at h
  simp only at h
  split at h
  · obtain rfl := Option.some.inj h; rfl
  · simp at h

theorem recurse_fits (rx : Radix) (preserve : Bool) (heur : TransP → Flags → Bool) : (transposeRecurse rx preserve heur).Fits := by
  refine fits_trans fun p fl hc hn => ?_
  unfold recurseMk
  simp only
  split
  · trivial
  · rename_i happ
    have hr : rx.of p.comm.length < p.comm.length ∧ 0 < rx.of p.comm.length := by
      simp only [recurseApplicable, Bool.not_eq_true', Bool.not_eq_false, Bool.and_eq_true, decide_eq_true_eq] at happ
      obtain ⟨⟨⟨⟨⟨_, h1⟩, h2⟩, _⟩, _⟩, _⟩ := happ
      exact ⟨h1, by omega⟩
    generalize rx.of p.comm.length = r at hr
    obtain ⟨hr1, hr2⟩ := hr
    refine fits_needLoc rfl rfl fun _ => fits_needGrp (groups_split hn fun x y => recurseTr_comm) rfl (fun i hi x e => ?_) fun _ =>
      fits_needGrp (groups_split hn fun x y => recurseTm_comm) rfl (fun i hi x e => ?_) fun _ => trivial
    · rw [recurseTr_comm e]
      have hlt : i * r < p.comm.length := by
        have h1 : i * r + r ≤ p.comm.length / r * r := by
          have := Nat.mul_le_mul_right r (show i + 1 ≤ p.comm.length / r by omega)
          rw [Nat.add_mul, Nat.one_mul] at this
          exact this
        have := Nat.div_mul_le_self p.comm.length r
        omega
      exact ⟨List.ne_nil_of_mem (mem_split hlt (Nat.mul_div_cancel _ hr2)), split_nodup hn _ _⟩
    · rw [recurseTm_comm e]
      exact ⟨List.ne_nil_of_mem (mem_split (by omega : i < p.comm.length) (Nat.mod_eq_of_lt hi)), split_nodup hn _ _⟩

theorem geq2_fits (preserve : Bool) : (dftRankGeq2 preserve).Fits := by
  refine fits_dft fun p fl hc hn => ?_
  unfold geq2Mk
  simp only
  split
  · split
    · trivial
    · exact fits_needLoc rfl rfl fun _ => fits_need hc hn rfl rfl fun _ => trivial
  · trivial

theorem geq2Transposed_fits (preserve : Bool) : (dftRankGeq2Transposed preserve).Fits := by
  refine fits_dft fun p fl hc hn => ?_
  unfold geq2TransposedMk
  simp only
  split
  · split
    · trivial
    · exact fits_needLoc rfl rfl fun _ => fits_need hc hn rfl rfl fun _ => fits_needLoc rfl rfl fun _ => trivial
  · trivial

theorem bigvec_fits (r : Rearrange) (preserve : Bool) : (dftRank1Bigvec r preserve).Fits := by
  refine fits_dft fun p fl hc hn => ?_
  unfold bigvecMk
  simp only
  split
  · split
    · trivial
    · split
      · trivial
      · exact fits_need hc hn rfl rfl fun _ => fits_needLoc rfl rfl fun _ => fits_need hc hn rfl rfl fun _ => trivial
  · trivial

theorem serial_fits (ub : MDftP → MPlan) : (dftSerial ub).Fits := by
  refine fits_dft fun p fl hc hn => ?_
  unfold serialMk
  simp only
  split
  · trivial
  · split
    · trivial
    · exact fits_needLoc rfl rfl fun _ => trivial

theorem rank1_fits (cexp : ℕ → ℤ → ℝ × ℝ) (first preserve : Bool) : (dftRank1 cexp first preserve).Fits := by
  refine fits_dft fun p fl hc hn => ?_
  unfold rank1Mk
  simp only
  split
  · split
    · trivial
    · split
      · trivial
      · refine fits_need hc hn rfl rfl fun _ => fits_needLoc rfl rfl fun _ => ?_
        split
        · exact fits_need hc hn rfl rfl fun _ => trivial
        · trivial
  · trivial

theorem rdft_geq2_fits (preserve : Bool) : (Rdft.rdftRankGeq2 preserve).Fits := by
  refine fits_rdft fun p fl hc hn => ?_
  unfold Rdft.geq2Mk
  simp only
  split
  · split
    · trivial
    · exact fits_needLoc rfl rfl fun _ => fits_need hc hn rfl rfl fun _ => trivial
  · trivial

theorem rdft_geq2Transposed_fits (preserve : Bool) : (Rdft.rdftRankGeq2Transposed preserve).Fits := by
  refine fits_rdft fun p fl hc hn => ?_
  unfold Rdft.geq2TransposedMk
  simp only
  split
  · split
    · trivial
    · exact fits_needLoc rfl rfl fun _ => fits_need hc hn rfl rfl fun _ => fits_needLoc rfl rfl fun _ => trivial
  · trivial

theorem rdft_bigvec_fits (r : Rearrange) (preserve : Bool) : (Rdft.rdftRank1Bigvec r preserve).Fits := by
  refine fits_rdft fun p fl hc hn => ?_
  unfold Rdft.bigvecMk
  simp only
  split
  · split
    · trivial
    · split
      · trivial
      · exact fits_need hc hn rfl rfl fun _ => fits_needLoc rfl rfl fun _ => fits_need hc hn rfl rfl fun _ => trivial
  · trivial

theorem rdft_serial_fits : Rdft.rdftSerial.Fits := by
  refine fits_rdft fun p fl hc hn => ?_
  unfold Rdft.serialMk
  simp only
  split
  · trivial
  · exact fits_needLoc rfl rfl fun _ => trivial

/-- all registered solvers meet the planner's demands -/
theorem mpiSolver_fits {junk : TransP → ℕ → List ℤ} {ub : MDftP → MPlan} {cexp : ℕ → ℤ → ℝ × ℝ} (s : MSolver) (h : MpiSolver junk ub cexp s) : s.Fits := by
  cases h with
  | transpose h =>
    cases h with
    | pairwise preserve => exact pairwise_fits junk preserve
    | alltoall copyIn => exact alltoall_fits copyIn
    | recurse rx preserve heur => exact recurse_fits rx preserve heur
  | geq2 preserve => exact geq2_fits preserve
  | geq2Transposed preserve => exact geq2Transposed_fits preserve
  | serial => exact serial_fits ub
  | bigvec r preserve => exact bigvec_fits r preserve
  | rank1 first preserve => exact rank1_fits cexp first preserve
  | rdftGeq2 preserve => exact rdft_geq2_fits preserve
  | rdftGeq2Transposed preserve => exact rdft_geq2Transposed_fits preserve
  | rdftSerial => exact rdft_serial_fits
  | rdftBigvec r preserve => exact rdft_bigvec_fits r preserve

end FFTW.Mpi
