import Verif.Model.Threads
import Verif.Proofs.Rdft2Solvers
import Verif.Proofs.Hc2hc
import Verif.Proofs.CodeletsTw
import Mathlib.Data.List.GetD

/-! # Threaded solvers: blocks, spawning, planning of the children -/

namespace FFTW.Thr
open Tensor Spec

theorem blockSize_pos {n T : ℕ} (hn : 0 < n) (hT : 0 < T) : 0 < blockSize n T := by
  unfold blockSize; exact Nat.div_pos (by omega) hT

theorem count_mul {n T : ℕ} (hn : 0 < n) (hT : 0 < T) : n ≤ count n T * blockSize n T := by
  have hb := blockSize_pos hn hT
  unfold count
  have := Nat.div_add_mod (n + blockSize n T - 1) (blockSize n T)
  have h2 := Nat.mod_lt (n + blockSize n T - 1) hb
  rw [mul_comm] at this
  omega

theorem lt_of_lt_count {n T i : ℕ} (hn : 0 < n) (hT : 0 < T) (hi : i < count n T) : i * blockSize n T < n := by
  have hb := blockSize_pos hn hT
  have h : (i + 1) * blockSize n T ≤ n + blockSize n T - 1 := by
    have : i + 1 ≤ (n + blockSize n T - 1) / blockSize n T := hi
    exact (Nat.le_div_iff_mul_le hb).1 this
  rw [add_mul, one_mul] at h
  omega

theorem count_pos {n T : ℕ} (hn : 0 < n) (hT : 0 < T) : 0 < count n T := by
  unfold count
  exact Nat.div_pos (by omega) (blockSize_pos hn hT)

/-- no more threads than asked for -/
theorem count_le {n T : ℕ} (hn : 0 < n) (hT : 0 < T) : count n T ≤ T := by
  by_contra h
  have h1 := lt_of_lt_count hn hT (not_le.1 h)
  have : n ≤ T * blockSize n T := by
    unfold blockSize
    have := Nat.div_add_mod (n + T - 1) T
    have h2 := Nat.mod_lt (n + T - 1) hT
    omega
  omega

/-- block `i` ends where block `i + 1` begins, and the last block ends at `n` -/
theorem block_end {n T i : ℕ} (hn : 0 < n) (hT : 0 < T) (hi : i < count n T) :
    i * blockSize n T + blockLen n T i = min n ((i + 1) * blockSize n T) ∧ 0 < blockLen n T i := by
  have h1 := lt_of_lt_count hn hT hi
  have h2 := count_mul hn hT
  have hb := blockSize_pos hn hT
  unfold blockLen
  split
  · rename_i h
    have e : i + 1 = count n T := by omega
    rw [e]
    omega
  · have h3 := lt_of_lt_count hn hT (i := i + 1) (by omega)
    rw [add_mul, one_mul] at h3 ⊢
    omega

theorem range_blocks_aux {n T : ℕ} (hn : 0 < n) (hT : 0 < T) : ∀ k ≤ count n T,
    Multiset.range (min n (k * blockSize n T)) = (Multiset.range k).bind fun i => (Multiset.range (blockLen n T i)).map fun j => i * blockSize n T + j := by
  intro k
  induction k with
  | zero => intro _; simp
  | succ k ih =>
    intro hk
    obtain ⟨he, _⟩ := block_end hn hT (i := k) (by omega)
    have h1 := lt_of_lt_count hn hT (i := k) (by omega)
    rw [← he, Multiset.range_add, Multiset.range_succ, Multiset.cons_bind, add_comm, ← ih (by omega)]
    congr 2
    omega

/-- the blocks cover `0 .. n-1` exactly -/
theorem range_blocks {n T : ℕ} (hn : 0 < n) (hT : 0 < T) :
    Multiset.range n = (Multiset.range (count n T)).bind fun i => (Multiset.range (blockLen n T i)).map fun j => i * blockSize n T + j := by
  rw [← range_blocks_aux hn hT _ le_rfl, min_eq_left (count_mul hn hT)]

theorem pairs_blocks {T : ℕ} (d : Dim) (l : List Dim) (hn : 0 < d.n) (hT : 0 < T) :
    pairs (some (d :: l)) = (Multiset.range (count d.n T)).bind fun i =>
      (pairs (some (⟨blockLen d.n T i, d.is, d.os⟩ :: l))).map fun v => ((i : ℤ) * (d.is * (blockSize d.n T : ℤ)), (i : ℤ) * (d.os * (blockSize d.n T : ℤ))) + v := by
  simp only [pairs_cons]
  rw [range_blocks hn hT, Multiset.bind_assoc]
  refine Multiset.bind_congr fun i _ => ?_
  rw [Multiset.bind_map, Multiset.map_bind]
  refine Multiset.bind_congr fun j _ => ?_
  rw [Multiset.map_map]
  refine Multiset.map_congr rfl fun v _ => ?_
  ext <;> simp <;> ring

/-! ### spawning -/

theorem foldl_forN (body : ℕ → State → State) (l : List ℕ) (st : State) :
    l.foldl (fun st i => body i st) st = forN l.length (fun k st => body (l.getD k 0) st) st := by
  induction l using List.reverseRecOn with
  | nil => rfl
  | append_singleton l a ih =>
    rw [List.foldl_append, List.length_append, List.length_singleton, forN, ih]
    simp only [List.foldl_cons, List.foldl_nil]
    congr 1
    · simp
    · apply forN_congr
      intro k hk st
      congr 1
      rw [List.getD_append _ _ _ _ hk]

/-- running `n` threads in some order is a loop over their numbers in that order -/
theorem spawn_forN (S : Sched) (n : ℕ) (st : State) : ∃ σ : ℕ → ℕ, (∀ k < n, σ k < n) ∧ (Multiset.range n).map σ = Multiset.range n ∧
    ∀ body, spawn S n body st = forN n (fun k => body (σ k)) st := by
  have hp := S.perm n st
  have hl : (S.order n st).length = n := by rw [hp.length_eq, List.length_range]
  refine ⟨fun k => (S.order n st).getD k 0, fun k hk => ?_, ?_, fun body => ?_⟩
  · have hk' : k < (S.order n st).length := by omega
    have : (S.order n st).getD k 0 ∈ S.order n st := by
      rw [List.getD_eq_getElem _ _ hk']; exact List.getElem_mem hk'
    exact List.mem_range.1 (hp.mem_iff.1 this)
  · have : (List.range n).map (fun k => (S.order n st).getD k 0) = S.order n st := by
      apply List.ext_getElem
      · simp [hl]
      · intro k h1 h2
        simp only [List.getElem_map, List.getElem_range]
        rw [List.getD_eq_getElem _ _ h2]
    show ((List.range n : List ℕ) : Multiset ℕ).map _ = ((List.range n : List ℕ) : Multiset ℕ)
    rw [Multiset.map_coe, this]
    exact Multiset.coe_eq_coe.2 hp
  · unfold spawn
    rw [foldl_forN, hl]

theorem bind_perm {α : Type} {n : ℕ} {σ : ℕ → ℕ} (h : (Multiset.range n).map σ = Multiset.range n) (g : ℕ → Multiset α) :
    (Multiset.range n).bind g = (Multiset.range n).bind fun k => g (σ k) := by
  conv_lhs => rw [← h]
  rw [Multiset.bind_map]

theorem GOK_spawn {V τ : Type} [CommRing V] [Elt V] {K : τ → ℕ → ℕ → ℕ → V} (S : Sched) {sz : List (Dim × τ)} {δi δo : ℤ} {inpl nd : Bool} {m : ℕ}
    {voff : ℕ → ℤ × ℤ} {vecs : ℕ → Tensor} {vec : Tensor} {ip : ℕ → Bool} {f : ℕ → Ptr → Ptr → State → State}
    (hp : pairs vec = (Multiset.range m).bind fun i => (pairs (vecs i)).map fun v => voff i + v)
    (hc : ∀ i < m, GOK K sz (vecs i) δi δo (ip i) nd (f i))
    (hA : ∀ i < m, ip i = true → inpl = true ∧ (voff i).1 = (voff i).2)
    (hB : ∀ i < m, ip i = false → inpl = false ∨ pairs (vecs i) = 0)
    (hin : inpl = true → ∀ i < m, ins (locT V δi δo sz (vecs i)) = outs (locT V δi δo sz (vecs i))) :
    GOK K sz vec δi δo inpl nd (fun I O st => spawn S m (fun i st => f i (I + (voff i).1) (O + (voff i).2) st) st) := by
  intro wf I O st hcomp
  obtain ⟨σ, h1, h2, h3⟩ := spawn_forN S m st
  have := GOK_pieces (K := K) (sz := sz) (δi := δi) (δo := δo) (inpl := inpl) (nd := nd) (m := m) (voff := fun k => voff (σ k))
    (vecs := fun k => vecs (σ k)) (vec := vec) (ip := fun k => ip (σ k)) (f := fun k => f (σ k))
    (by rw [hp, bind_perm h2]) (fun k hk => hc _ (h1 k hk)) (fun k hk => hA _ (h1 k hk)) (fun k hk => hB _ (h1 k hk)) (fun h k hk => hin h _ (h1 k hk))
    wf I O st hcomp
  simp only [h3]
  exact this

theorem HOK_spawn (S : Sched) {h : Half} {sz : List (Dim × Unit)} {inpl nd : Bool} {m : ℕ} {voff : ℕ → ℤ × ℤ} {vecs : ℕ → Tensor} {vec : Tensor}
    {ip : ℕ → Bool} {f : ℕ → Ptr → Ptr → State → State}
    (hp : pairs vec = (Multiset.range m).bind fun i => (pairs (vecs i)).map fun v => voff i + v)
    (hc : ∀ i < m, HOK h sz (vecs i) (ip i) nd (f i))
    (hA : ∀ i < m, ip i = true → inpl = true ∧ (voff i).1 = (voff i).2)
    (hB : ∀ i < m, ip i = false → inpl = false ∨ pairs (vecs i) = 0) :
    HOK h sz vec inpl nd (fun I O st => spawn S m (fun i st => f i (I + (voff i).1) (O + (voff i).2) st) st) := by
  intro wf I O st hcomp
  obtain ⟨σ, h1, h2, h3⟩ := spawn_forN S m st
  have := HOK_pieces (h := h) (sz := sz) (inpl := inpl) (nd := nd) (m := m) (voff := fun k => voff (σ k))
    (vecs := fun k => vecs (σ k)) (vec := vec) (ip := fun k => ip (σ k)) (f := fun k => f (σ k))
    (by rw [hp, bind_perm h2]) (fun k hk => hc _ (h1 k hk)) (fun k hk => hA _ (h1 k hk)) (fun k hk => hB _ (h1 k hk))
    wf I O st hcomp
  simp only [h3]
  exact this

/-! ### planning of the children -/

theorem nd_nthr (fl : Flags) (n : ℕ) : (fl.modify { nthr := some n }).nd = fl.nd := by
  have h : ∀ x : BitVec 20, x &&& 1048575#20 = x := fun x => BitVec.and_allOnes
  cases fl; simp [Flags.modify, Flags.nd, h]

theorem nd_with (fl : Flags) (n : ℕ) (m : FMod) : (({ fl with nthr := n } : Flags).modify m).nd = (fl.modify m).nd := rfl
theorem nd_mod (fl : Flags) (n : ℕ) (m : FMod) : (fl.modify { m with nthr := some n }).nd = (fl.modify m).nd := rfl

theorem good_withNthr {α : Type} {fl : Flags} {n k : ℕ} {Q : α → Prop} {t : Mk α} (h : t.Good { fl with nthr := k } Q) : (withNthr n t).Good fl Q := by
  induction t with
  | ret a => exact h
  | plan p m k ih => exact ⟨h.1, fun r hr => ih r (h.2 r hr)⟩

theorem good_collect {α : Type} {fl : Flags} {Q : ℕ → α → Prop} {mk : ℕ → Mk (Option α)} (n : ℕ)
    (h : ∀ i < n, (mk i).Good fl fun r => ∀ a, r = some a → Q i a) :
    (collect mk n).Good fl fun r => ∀ l, r = some l → l.length = n ∧ ∀ i a, l[i]? = some a → Q i a := by
  induction n with
  | zero =>
    rintro l h
    obtain rfl := Option.some.inj h
    simp
  | succ n ih =>
    refine (ih fun i hi => h i (by omega)).bind fun r hr => ?_
    cases r with
    | none => rintro l h; simp at h
    | some l =>
      obtain ⟨hl, hq⟩ := hr l rfl
      refine (h n (by omega)).bind fun r hr => ?_
      cases r with
      | none => rintro l h; simp at h
      | some a =>
        rintro l' h'
        obtain rfl := Option.some.inj h'
        refine ⟨by simp [hl], fun i b hb => ?_⟩
        by_cases hi : i < n
        · rw [List.getElem?_append_left (by omega)] at hb
          exact hq i b hb
        · rw [List.getElem?_append_right (by omega)] at hb
          have : i = n := by
            by_contra hne
            rw [List.getElem?_eq_none (by simp; omega)] at hb
            simp at hb
          subst this
          rw [hl, Nat.sub_self] at hb
          obtain rfl := Option.some.inj hb
          exact hr _ rfl

theorem nth_eq {α : Type} {l : List α} {i : ℕ} (hi : i < l.length) : ∃ c, l[i]? = some c ∧ ∀ run st, nth l i run st = run c st :=
  ⟨l[i], List.getElem?_eq_getElem hi, fun run st => by simp [nth, List.getElem?_eq_getElem hi]⟩

theorem set_perm {v : List Dim} {vdim : ℕ} {d : Dim} (h : v[vdim]? = some d) (x : Dim) : (v.set vdim x).Perm (x :: v.eraseIdx vdim) := by
  obtain ⟨hi, _⟩ := List.getElem?_eq_some_iff.1 h
  exact List.set_perm_cons_eraseIdx hi x

/-- the vector cut into blocks along dimension `vdim` -/
theorem pairs_blocks_at {T : ℕ} {v : List Dim} {vdim : ℕ} {d : Dim} (h : v[vdim]? = some d) (hn : 0 < d.n) (hT : 0 < T) :
    pairs (some v) = (Multiset.range (count d.n T)).bind fun i => (pairs (some (v.set vdim ⟨blockLen d.n T i, d.is, d.os⟩))).map fun w =>
      ((i : ℤ) * (d.is * (blockSize d.n T : ℤ)), (i : ℤ) * (d.os * (blockSize d.n T : ℤ))) + w := by
  rw [pairs_perm (DftS.eraseIdx_perm h), pairs_blocks d _ hn hT]
  refine Multiset.bind_congr fun i _ => ?_
  rw [pairs_perm (set_perm h _)]

end FFTW.Thr
