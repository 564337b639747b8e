import Verif.Proofs.MpiTranspose
import Verif.Model.MpiRecurse
import Verif.Proofs.Primes4

/-! `mpi/transpose-recurse.c` is sound -/

namespace FFTW.Mpi
open Tensor Spec RdftS
variable [CLib]

/-! ## canonical problems -/

/-- a transposition problem as given -/
def rawT (nx ny vn : ℕ) (I O : ℕ → Ptr) (block tblock : ℕ) (comm : Comm) (flags : MFlags) (space : ℕ → ℕ) : TransP :=
  { nx, ny, vn, I, O, block, tblock, comm, flags, space }

theorem clip_div {n b i : ℕ} (hi : i < n) : i / (if b > n then n else b) = i / b ∧ i % (if b > n then n else b) = i % b := by
  split
  · rename_i h
    exact ⟨by rw [Nat.div_eq_of_lt hi, Nat.div_eq_of_lt (by omega)], by rw [Nat.mod_eq_of_lt hi, Nat.mod_eq_of_lt (by omega)]⟩
  · exact ⟨rfl, rfl⟩

theorem clip_block (n b w : ℕ) : block n (if b > n then n else b) w = block n b w := by
  split
  · rename_i h
    rw [block_eq, block_eq]
    cases w with
    | zero => omega
    | succ w =>
      have e1 : (w + 1) * n = w * n + n := by ring
      have e2 : (w + 1) * b = w * b + b := by ring
      omega
  · rfl

theorem one_row {n : ℕ} {i : ℕ} (hi : i < n) : block n 1 (i / 1) = 1 := by
  rw [block_eq]; simp; omega

theorem off_canon {n ny vn b i j v : ℕ} (hi : i < n) (t : Bool) :
    (if (t || decide ((if b > n then n else b) = 1)) = true then colOff n vn (if b > n then n else b) i j v else rowOff ny vn (if b > n then n else b) i j v) =
      if t = true then colOff n vn b i j v else rowOff ny vn b i j v := by
  obtain ⟨h1, h2⟩ := clip_div (b := b) hi
  have hc : colOff n vn (if b > n then n else b) i j v = colOff n vn b i j v := by
    unfold colOff
    rw [clip_block, h1, h2]
  have hr : rowOff ny vn (if b > n then n else b) i j v = rowOff ny vn b i j v := by
    unfold rowOff
    rw [h2]
  rw [hr, hc]
  cases t with
  | true => simp
  | false =>
    by_cases hb : (if b > n then n else b) = 1
    · rw [if_pos (by simp [hb]), if_neg (by decide), ← hc, ← hr, hb]
      unfold colOff rowOff
      rw [one_row hi]
      simp [Nat.mod_one]
    · rw [if_neg (by simp [hb]), if_neg (by decide)]

/-- a plan for the canonical problem is one for the problem as given -/
theorem tok_raw {nx ny vn : ℕ} {I O : ℕ → Ptr} {block tblock : ℕ} {comm : Comm} {flags : MFlags} {space : ℕ → ℕ} {nd : Bool} {f : MPlan}
    (h : TOK nd (mkTrans nx ny vn I O block tblock comm flags space) f) : TOK nd (rawT nx ny vn I O block tblock comm flags space) f := by
  intro P Q st hc
  obtain ⟨h1, h2⟩ := h P Q st hc
  refine ⟨h1, fun i hi j hj v hv => ?_⟩
  have h3 := h2 i hi j hj v hv
  have hi' : i < nx := hi
  have hj' : j < ny := hj
  have e1 : (mkTrans nx ny vn I O block tblock comm flags space).inOff i j v = (rawT nx ny vn I O block tblock comm flags space).inOff i j v := by
    unfold TransP.inOff mkTrans rawT
    exact off_canon hi' _
  have e2 : (mkTrans nx ny vn I O block tblock comm flags space).outOff i j v = (rawT nx ny vn I O block tblock comm flags space).outOff i j v := by
    unfold TransP.outOff mkTrans rawT
    exact off_canon hj' _
  have e3 : i / (mkTrans nx ny vn I O block tblock comm flags space).block = i / block := (clip_div hi').1
  have e4 : j / (mkTrans nx ny vn I O block tblock comm flags space).tblock = j / tblock := (clip_div hj').1
  rw [e1, e2, e3, e4] at h3
  exact h3

theorem clip_pes {n b k : ℕ} (hn : 0 < n) (h : n ≤ k * b) : n ≤ k * (if b > n then n else b) := by
  split
  · cases k with
    | zero => omega
    | succ k =>
      have : (k + 1) * n = k * n + n := by ring
      omega
  · exact h

theorem mkTrans_ok {nx ny vn : ℕ} {I O : ℕ → Ptr} {block tblock : ℕ} {comm : Comm} {flags : MFlags} {space : ℕ → ℕ}
    (h1 : comm.Nodup) (h2 : 0 < nx) (h3 : 0 < ny) (h4 : 0 < vn) (h5 : 0 < block) (h6 : 0 < tblock) (h7 : nx ≤ comm.length * block) (h8 : ny ≤ comm.length * tblock)
    (h9 : ∀ r < comm.length, Mpi.block nx block r * ny * vn ≤ space (comm.at r)) (h10 : ∀ r < comm.length, nx * Mpi.block ny tblock r * vn ≤ space (comm.at r))
    (h11 : MApart comm space (I (comm.at 0) = O (comm.at 0)) I O) : (mkTrans nx ny vn I O block tblock comm flags space).Ok where
  nodup := h1
  nx := h2
  ny := h3
  vn := h4
  blk := by show 0 < (if block > nx then nx else block) ∧ (if block > nx then nx else block) ≤ nx; split <;> omega
  tblk := by show 0 < (if tblock > ny then ny else tblock) ∧ (if tblock > ny then ny else tblock) ≤ ny; split <;> omega
  pes := clip_pes h2 h7
  tpes := clip_pes h3 h8
  roomIn r hr := by
    have := h9 r hr
    rw [← clip_block] at this
    exact this
  roomOut r hr := by
    have := h10 r hr
    rw [← clip_block] at this
    exact this
  apart := h11

/-! ## groups of processes -/

theorem filter_range {N : ℕ} {P : ℕ → Bool} {l : List ℕ} (hl : l.Pairwise (· < ·)) (hm : ∀ a, a ∈ l ↔ a < N ∧ P a = true) : (List.range N).filter P = l := by
  have h1 : ((List.range N).filter P).Pairwise (· < ·) := List.pairwise_lt_range.sublist List.filter_sublist
  refine List.Perm.eq_of_pairwise (le := fun a b => a < b) (fun a b _ _ h h' => by omega) h1 hl ?_
  refine (List.perm_ext_iff_of_nodup (h1.imp (fun h => by omega)) (hl.imp (fun h => by omega))).2 ?_
  intro a
  rw [hm]; simp

theorem map_pairwise {n : ℕ} {f : ℕ → ℕ} (hf : ∀ a b, a < b → f a < f b) : ((List.range n).map f).Pairwise (· < ·) :=
  List.Pairwise.map f (fun a b h => hf a b h) List.pairwise_lt_range

theorem split_div {c : Comm} {r m x : ℕ} (hl : c.length = r * m) (hr : 0 < r) (hx : x < m) :
    c.split (fun me => me / r) x = (List.range r).map fun a => c.at (x * r + a) := by
  unfold Comm.split
  rw [filter_range (l := (List.range r).map fun a => x * r + a) (map_pairwise (fun a b h => by omega)), List.map_map]
  · rfl
  · intro a
    simp only [List.mem_map, List.mem_range, decide_eq_true_eq]
    constructor
    · rintro ⟨b, hb, rfl⟩
      refine ⟨?_, ?_⟩
      · have := lin_lt hx hb
        rw [hl, Nat.mul_comm r m]; exact this
      · rw [Nat.add_comm, Nat.add_mul_div_right _ _ hr, Nat.div_eq_of_lt hb]; omega
    · rintro ⟨h1, h2⟩
      refine ⟨a % r, Nat.mod_lt _ hr, ?_⟩
      have := Nat.div_add_mod a r
      rw [← h2]; rw [Nat.mul_comm]; exact this

theorem split_mod {c : Comm} {r m x : ℕ} (hl : c.length = r * m) (hr : 0 < r) (hx : x < r) :
    c.split (fun me => me % r) x = (List.range m).map fun a => c.at (a * r + x) := by
  unfold Comm.split
  rw [filter_range (l := (List.range m).map fun a => a * r + x) (map_pairwise (fun a b h => by
    have := Nat.mul_lt_mul_of_pos_right h hr; omega)), List.map_map]
  · rfl
  · intro a
    simp only [List.mem_map, List.mem_range, decide_eq_true_eq]
    constructor
    · rintro ⟨b, hb, rfl⟩
      refine ⟨?_, ?_⟩
      · have := lin_lt hb hx
        rw [hl, Nat.mul_comm r m]; exact this
      · rw [Nat.add_comm, Nat.add_mul_mod_self_right, Nat.mod_eq_of_lt hx]
    · rintro ⟨h1, h2⟩
      refine ⟨a / r, ?_, ?_⟩
      · rw [Nat.div_lt_iff_lt_mul hr, Nat.mul_comm, ← hl]; exact h1
      · have := Nat.div_add_mod a r
        rw [h2] at this
        rw [Nat.mul_comm]; exact this

theorem at_inj {c : Comm} (hn : c.Nodup) {a b : ℕ} (ha : a < c.length) (hb : b < c.length) (h : c.at a = c.at b) : a = b := by
  rw [← idx_at hn ha, ← idx_at hn hb, h]

theorem at_map {n : ℕ} {f : ℕ → ℕ} {a : ℕ} (h : a < n) : Comm.at ((List.range n).map f) a = f a := by
  unfold Comm.at
  rw [List.getD_eq_getElem?_getD]
  simp [h]

/-- facts about a group -/
structure Group (c g : Comm) (n : ℕ) (e : ℕ → ℕ) : Prop where
  len : g.length = n
  nodup : g.Nodup
  at_ : ∀ a < n, g.at a = c.at (e a)
  lt : ∀ a < n, e a < c.length

theorem group_of {c : Comm} (hn : c.Nodup) {n : ℕ} {e : ℕ → ℕ} {g : Comm} (hg : g = (List.range n).map fun a => c.at (e a)) (hlt : ∀ a < n, e a < c.length)
    (hinj : ∀ a < n, ∀ b < n, e a = e b → a = b) : Group c g n e := by
  subst hg
  refine ⟨by simp, ?_, fun a ha => at_map ha, hlt⟩
  refine List.Nodup.map_on ?_ List.nodup_range
  intro a ha b hb h
  rw [List.mem_range] at ha hb
  exact hinj a ha b hb (at_inj hn (hlt a ha) (hlt b hb) h)

theorem Group.mem {c g : Comm} {n : ℕ} {e : ℕ → ℕ} (h : Group c g n e) {w : ℕ} (hw : w ∈ g) : ∃ a < n, w = c.at (e a) := by
  obtain ⟨h1, h2⟩ := at_idx hw
  rw [h.len] at h1
  exact ⟨_, h1, by rw [← h.at_ _ h1, h2]⟩

theorem Group.sub {c g : Comm} {n : ℕ} {e : ℕ → ℕ} (h : Group c g n e) {w : ℕ} (hw : w ∈ g) : w ∈ c := by
  obtain ⟨a, ha, rfl⟩ := h.mem hw
  exact at_mem (h.lt a ha)

/-- groups run one after the other do not disturb each other -/
theorem runGroups_ok {g : ℕ → Comm} {F : ℕ → Dist → Dist} {st : Dist} : ∀ n, (∀ x < n, ∀ y < n, x ≠ y → ∀ w ∈ g x, w ∉ g y) →
    (∀ x < n, ∀ s : Dist, (∀ w ∈ g x, s w = st w) → ∀ w, w ∉ g x → F x s w = s w) →
    (∀ x < n, ∃ s : Dist, (∀ w ∈ g x, s w = st w) ∧ ∀ w ∈ g x, runGroups n F st w = F x s w) ∧ ∀ w, (∀ x < n, w ∉ g x) → runGroups n F st w = st w := by
  intro n
  induction n with
  | zero => intro _ _; exact ⟨fun x hx => by omega, fun _ _ => rfl⟩
  | succ n ih =>
    intro hd hF
    obtain ⟨h1, h2⟩ := ih (fun x hx y hy => hd x (by omega) y (by omega)) (fun x hx => hF x (by omega))
    have hn : ∀ w ∈ g n, runGroups n F st w = st w := fun w hw => h2 w (fun x hx hw' => hd x (by omega) n (by omega) (by omega) w hw' hw)
    refine ⟨fun x hx => ?_, fun w hw => ?_⟩
    · rcases Nat.lt_or_ge x n with h | h
      · obtain ⟨s, s1, s2⟩ := h1 x h
        refine ⟨s, s1, fun w hw => ?_⟩
        rw [runGroups, hF n (by omega) _ hn w (hd x hx n (by omega) (by omega) w hw)]
        exact s2 w hw
      · have : x = n := by omega
        subst this
        exact ⟨runGroups x F st, hn, fun w _ => rfl⟩
    · rw [runGroups, hF n (by omega) _ hn w (hw n (by omega))]
      exact h2 w (fun x hx => hw x (by omega))

end FFTW.Mpi
