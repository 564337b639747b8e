import Verif.Spec.MpiApi
import Verif.Proofs.MpiRank1b
import Verif.Proofs.MpiSign

/-! distributed arrays as the user sees them -/

namespace FFTW.Mpi
open Tensor Spec RdftS
variable [CLib]

theorem rowPos_eq : ∀ ns l : List ℕ, rowPos ns l = rm ns l
  | _ :: ns, _ :: ls => by rw [rowPos, rm, rowPos_eq ns ls]
  | [], [] => rfl
  | [], _ :: _ => rfl
  | _ :: _, [] => rfl

theorem flip2_flip2 (t : Bool) (l : List ℕ) : flip2 t (flip2 t l) = l := by
  unfold flip2
  cases t
  · rfl
  · rcases l with _ | ⟨a, _ | ⟨b, l⟩⟩ <;> rfl

theorem index_flip (t : Bool) {ns l : List ℕ} (h : Index ns l) : Index (flip2 t ns) (flip2 t l) := by
  unfold flip2
  cases t
  · exact h
  · cases h with
    | nil => exact .nil
    | cons h1 h => cases h with
      | nil => exact .cons h1 .nil
      | cons h2 h => exact .cons h2 (.cons h1 h)

theorem zipWith_flip (t : Bool) {a b : List ℕ} (h : a.length = b.length) : flip2 t (List.zipWith (· + ·) a b) = List.zipWith (· + ·) (flip2 t a) (flip2 t b) := by
  unfold flip2
  cases t
  · rfl
  · rcases a with _ | ⟨a, _ | ⟨a2, l⟩⟩ <;> rcases b with _ | ⟨b, _ | ⟨b2, l2⟩⟩ <;> simp_all [swap2]

theorem Index.length {ns l : List ℕ} (h : Index ns l) : l.length = ns.length := List.Forall₂.length_eq h

theorem holds_flip {vn : ℕ} {comm : Comm} {P : ℕ → Ptr} {st : Dist} {t : Bool} {n start : ℕ → List ℕ} {X : List ℕ → ℕ → ℂ} (hl : ∀ me, (start me).length = (n me).length) :
    Holds vn comm P st t n start X ↔ Holds vn comm P st false (fun me => flip2 t (n me)) (fun me => flip2 t (start me)) fun l v => X (flip2 t l) v := by
  constructor
  · intro h me hme l hi v hv
    have := h me hme (flip2 t l) (by have := index_flip t hi; rwa [flip2_flip2] at this) v hv
    rw [flip2_flip2] at this
    refine this.trans ?_
    beta_reduce
    have hlen := hi.length
    have e1 : (start me).length = (flip2 t l).length := by
      rw [hl]
      have := index_flip t hi
      rw [flip2_flip2] at this
      exact this.length.symm
    congr 1
    have := zipWith_flip t e1
    rw [flip2_flip2] at this
    rw [← this, flip2_flip2]
  · intro h me hme l hi v hv
    have := h me hme (flip2 t l) (index_flip t hi) v hv
    refine this.trans ?_
    beta_reduce
    congr 1
    rw [← zipWith_flip t (by rw [hl]; exact hi.length.symm), flip2_flip2]

theorem numBlocks_lt {n b k : ℕ} (hb : 0 < b) (h : k < numBlocks n b) : k * b < n := by
  unfold numBlocks at h
  have h1 : (k + 1) * b ≤ n + b - 1 := (Nat.mul_le_mul_right b h).trans (Nat.div_mul_le_self _ _)
  rw [Nat.add_mul, Nat.one_mul] at h1
  omega

theorem lt_numBlocks {n b i : ℕ} (hb : 0 < b) (h : i < n) : i / b < numBlocks n b := by
  unfold numBlocks
  rw [Nat.lt_iff_add_one_le, Nat.le_div_iff_mul_le hb, Nat.add_mul, Nat.one_mul]
  have := Nat.div_mul_le_self i b
  omega

/-- a simple distribution: blocks of `b` in the first dimension -/
structure Simple (n b : ℕ) (ns : List ℕ) (sz start : ℕ → List ℕ) : Prop where
  len : ∀ me, (start me).length = (sz me).length
  lt : ∀ me < numBlocks n b, sz me = block n b me :: ns ∧ start me = me * b :: ns.map fun _ => 0
  ge : ∀ me, numBlocks n b ≤ me → ∃ m, sz me = 0 :: m

theorem zip_zero (l : List ℕ) : ∀ ns : List ℕ, l.length = ns.length → List.zipWith (· + ·) (ns.map fun _ => 0) l = l := by
  induction l with
  | nil => intro ns h; simp
  | cons a l ih =>
    intro ns h
    rcases ns with _ | ⟨b, ns⟩
    · simp at h
    · simp only [List.map_cons, List.zipWith_cons_cons, Nat.zero_add]
      rw [ih ns (by simpa using h)]

/-- the input -/
theorem Simple.read {n b : ℕ} {ns : List ℕ} {sz start : ℕ → List ℕ} (h : Simple n b ns sz start) (hb : 0 < b) {vn : ℕ} {comm : Comm} (hp : numBlocks n b ≤ comm.length) {P : ℕ → Ptr}
    {st : Dist} {X : List ℕ → ℕ → ℂ} (hX : Holds vn comm P st false sz start X) {j : List ℕ} (hj : Index (n :: ns) j) {v : ℕ} (hv : v < vn) :
    cplx vn comm P st (place ((n, b) :: whole ns) j) v = X j v := by
  cases hj with
  | @cons j0 _ js _ h0 hj =>
  have hlt := lt_numBlocks hb h0
  obtain ⟨e1, e2⟩ := h.lt _ hlt
  have := hX (j0 / b) (by omega) (j0 % b :: js) (by rw [e1]; exact .cons (block_mod h0 hb) hj) v hv
  rw [e1, e2] at this
  simp only [flip2, Bool.false_eq_true, if_false, List.zipWith_cons_cons] at this
  rw [zip_zero _ _ (Index.length hj), Nat.div_add_mod'] at this
  rw [place_cons hj, ← this, rowPos_eq]
  rfl

/-- the output -/
theorem Simple.write {n b : ℕ} {ns : List ℕ} {sz start : ℕ → List ℕ} (h : Simple n b ns sz start) {vn : ℕ} {comm : Comm} {P : ℕ → Ptr}
    {st : Dist} {X : List ℕ → ℕ → ℂ} (hX : ∀ j, Index (n :: ns) j → ∀ v < vn, cplx vn comm P st (place ((n, b) :: whole ns) j) v = X j v) : Holds vn comm P st false sz start X := by
  intro me hme l hl v hv
  by_cases hlt : me < numBlocks n b
  · obtain ⟨e1, e2⟩ := h.lt _ hlt
    rw [e1] at hl
    cases hl with
    | @cons l0 _ ls _ h0 hl =>
    obtain ⟨g1, g2, g3⟩ := block_global h0
    have := hX ((me * b + l0) :: ls) (.cons g1 hl) v hv
    rw [place_cons hl, g2, g3] at this
    rw [e1, e2]
    simp only [flip2, Bool.false_eq_true, if_false, List.zipWith_cons_cons]
    rw [zip_zero _ _ (Index.length hl), ← this, rowPos_eq]
    rfl
  · obtain ⟨m, e⟩ := h.ge me (by omega)
    rw [e] at hl
    cases hl with
    | cons h0 _ => exact absurd h0 (by omega)

/-! ### `local_size` -/

theorem coords_whole {ns : List ℕ} (h : ∀ n ∈ ns, 0 < n) (w : ℕ) : blockCoords (whole ns) w = (ns.map fun _ => 0, w) := by
  induction ns with
  | nil => rfl
  | cons n ns ih =>
    show blockCoords ((n, n) :: whole ns) w = _
    rw [blockCoords, ih fun x hx => h x (by simp [hx])]
    simp only [numBlocks_self (h n (by simp)), Nat.mod_one, Nat.div_one, List.map_cons]

theorem total_cons (n b : ℕ) {ns : List ℕ} (h : ∀ n ∈ ns, 0 < n) : numBlocksTotal ((n, b) :: whole ns) = numBlocks n b := by
  unfold numBlocksTotal
  rw [List.map_cons, List.prod_cons, nb_whole h, Nat.mul_one]

theorem sizes_whole (ns : List ℕ) : ((whole ns).zip (ns.map fun _ => 0)).map (fun x : (ℕ × ℕ) × ℕ => Mpi.block x.1.1 x.1.2 x.2) = ns := by
  induction ns with
  | nil => rfl
  | cons n ns ih =>
    show Mpi.block n n 0 :: ((whole ns).zip (ns.map fun _ => 0)).map _ = _
    rw [ih, block_self]

theorem starts_whole (ns : List ℕ) : ((whole ns).zip (ns.map fun _ => 0)).map (fun x : (ℕ × ℕ) × ℕ => x.2 * x.1.2) = ns.map fun _ => 0 := by
  induction ns with
  | nil => rfl
  | cons n ns ih =>
    show 0 * n :: ((whole ns).zip (ns.map fun _ => 0)).map _ = _
    rw [ih, Nat.zero_mul]; rfl

theorem sizes_first (n b : ℕ) {ns : List ℕ} (h : ∀ n ∈ ns, 0 < n) {me : ℕ} (hme : me < numBlocks n b) :
    localSizes me ((n, b) :: whole ns) = (block n b me :: ns, me * b :: ns.map fun _ => 0) := by
  unfold localSizes
  rw [total_cons n b h, if_neg (by omega), blockCoords, coords_whole h]
  simp only [Nat.mod_eq_of_lt hme, List.zip_cons_cons, List.map_cons, sizes_whole, starts_whole]

theorem total_swap (x y : ℕ × ℕ) (l : List (ℕ × ℕ)) : numBlocksTotal (x :: y :: l) = numBlocksTotal (y :: x :: l) := by
  unfold numBlocksTotal
  simp only [List.map_cons, List.prod_cons]
  ring

theorem sizes_second (n b : ℕ) {n' : ℕ} {ns : List ℕ} (h : ∀ n ∈ n' :: ns, 0 < n) {me : ℕ} (hme : me < numBlocks n b) :
    localSizes me ((n', n') :: (n, b) :: whole ns) = (n' :: block n b me :: ns, 0 :: me * b :: ns.map fun _ => 0) := by
  unfold localSizes
  have e : numBlocksTotal ((n', n') :: (n, b) :: whole ns) = numBlocks n b := by rw [total_swap]; exact total_cons n b (ns := n' :: ns) h
  rw [e, if_neg (by omega), blockCoords, blockCoords, coords_whole fun x hx => h x (by simp [hx])]
  simp only [numBlocks_self (h n' (by simp)), Nat.mod_one, Nat.mod_eq_of_lt hme, List.zip_cons_cons, List.map_cons, sizes_whole, starts_whole, block_self, Nat.zero_mul]

theorem sizes_ge {D : List (ℕ × ℕ)} {me : ℕ} (h : numBlocksTotal D ≤ me) : localSizes me D = (D.map fun _ => 0, D.map fun _ => 0) := by
  unfold localSizes
  rw [if_pos h]

theorem coords_len (D : List (ℕ × ℕ)) (w : ℕ) : (blockCoords D w).1.length = D.length := by
  induction D with
  | nil => rfl
  | cons d D ih => rw [blockCoords]; simp [ih]

theorem sizes_len (me : ℕ) (D : List (ℕ × ℕ)) : (localSizes me D).1.length = D.length ∧ (localSizes me D).2.length = D.length := by
  unfold localSizes
  split
  · simp
  · simp [coords_len]

/-- distribution in the first dimension, or in the second if the array is stored with these two exchanged -/
theorem simple_sizes (t : Bool) (n b : ℕ) {n' : ℕ} {ns : List ℕ} (h : ∀ n ∈ n' :: ns, 0 < n) :
    Simple n b (n' :: ns) (fun me => flip2 t (localSizes me (if t then (n', n') :: (n, b) :: whole ns else (n, b) :: (n', n') :: whole ns)).1)
      (fun me => flip2 t (localSizes me (if t then (n', n') :: (n, b) :: whole ns else (n, b) :: (n', n') :: whole ns)).2) := by
  cases t with
  | false =>
    refine ⟨fun me => ?_, fun me hme => ?_, fun me hme => ?_⟩
    · exact (sizes_len _ _).2.trans (sizes_len _ _).1.symm
    · have := sizes_first n b (ns := n' :: ns) h hme
      exact ⟨congrArg Prod.fst this, congrArg Prod.snd this⟩
    · have : localSizes me ((n, b) :: whole (n' :: ns)) = _ := sizes_ge (by rw [total_cons n b h]; exact hme)
      exact ⟨_, congrArg Prod.fst this⟩
  | true =>
    have fl : ∀ l, (flip2 true l).length = l.length := by
      intro l; rcases l with _ | ⟨a, _ | ⟨b, l⟩⟩ <;> rfl
    refine ⟨fun me => ?_, fun me hme => ?_, fun me hme => ?_⟩
    · rw [fl, fl]
      exact (sizes_len _ _).2.trans (sizes_len _ _).1.symm
    · have := sizes_second n b h hme
      simp only [if_true]
      rw [this]
      exact ⟨rfl, rfl⟩
    · have : localSizes me ((n', n') :: (n, b) :: whole ns) = _ := sizes_ge (by rw [total_swap]; rw [show (n', n') :: whole ns = whole (n' :: ns) from rfl, total_cons n b h]; exact hme)
      simp only [if_true]
      rw [this]
      exact ⟨_, rfl⟩

theorem simple_one (n b : ℕ) : Simple n b [] (fun me => (localSizes me [(n, b)]).1) (fun me => (localSizes me [(n, b)]).2) := by
  refine ⟨fun me => ?_, fun me hme => ?_, fun me hme => ?_⟩
  · exact (sizes_len _ _).2.trans (sizes_len _ _).1.symm
  · have := sizes_first n b (ns := []) (by simp) hme
    exact ⟨congrArg Prod.fst this, congrArg Prod.snd this⟩
  · have : localSizes me ((n, b) :: whole []) = _ := sizes_ge (by rw [total_cons n b (by simp)]; exact hme)
    exact ⟨_, congrArg Prod.fst this⟩

/-! ### the transform does not depend on the order of the dimensions -/

theorem mdft_flip (bwd t : Bool) {ns k : List ℕ} (h : Index ns k) (x : List ℕ → ℂ) : mdft bwd (flip2 t ns) (flip2 t k) (fun j => x (flip2 t j)) = mdft bwd ns k x := by
  cases t with
  | false => rfl
  | true =>
    cases h with
    | nil => rfl
    | cons h1 h => cases h with
      | nil =>
        simp only [flip2, if_true, swap2, mdft]
      | cons h2 h =>
        simp only [flip2, if_true, swap2, mdft, Finset.mul_sum]
        rw [Finset.sum_comm]
        refine Finset.sum_congr rfl fun i _ => Finset.sum_congr rfl fun j _ => ?_
        ring

theorem mdft_congr (bwd : Bool) {ns : List ℕ} {x y : List ℕ → ℂ} : ∀ {k : List ℕ}, Index ns k → (∀ j, Index ns j → x j = y j) → mdft bwd ns k x = mdft bwd ns k y := by
  intro k h
  induction h generalizing x y with
  | nil => intro hxy; exact hxy [] .nil
  | @cons k n ks ns hk h ih =>
    intro hxy
    simp only [mdft]
    refine Finset.sum_congr rfl fun j hj => ?_
    congr 1
    exact ih fun js hjs => hxy _ (.cons (Finset.mem_range.1 hj) hjs)

end FFTW.Mpi
