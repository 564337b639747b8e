import Verif.Proofs.MpiApi4

/-! the simple interfaces -/

namespace FFTW.Mpi
open Tensor Spec RdftS
variable [CLib]

theorem holds_first {n b : ℕ} {ns : List ℕ} {sz start : ℕ → List ℕ} (h : Simple n b ns sz start) {vn : ℕ} {comm : Comm} {P : ℕ → Ptr} {st : Dist} {X : List ℕ → ℕ → ℂ} :
    Holds vn comm P st false sz start X ↔ Holds vn comm P st false (fun me => (sz me).getD 0 0 :: ns) (fun me => (start me).getD 0 0 :: ns.map fun _ => 0) X := by
  refine forall₂_congr fun me _ => ?_
  beta_reduce
  by_cases hlt : me < numBlocks n b
  · obtain ⟨e1, e2⟩ := h.lt me hlt
    rw [e1, e2]
    rfl
  · obtain ⟨m, e⟩ := h.ge me (by omega)
    rw [e]
    constructor
    · intro _ l hl
      cases hl with | cons h0 _ => exact absurd h0 (by simp)
    · intro _ l hl
      cases hl with | cons h0 _ => exact absurd h0 (by simp)

theorem holds_second {n b n' : ℕ} {ns : List ℕ} {sz start : ℕ → List ℕ} (h : Simple n b (n' :: ns) (fun me => flip2 true (sz me)) (fun me => flip2 true (start me))) {vn : ℕ} {comm : Comm} {P : ℕ → Ptr}
    {st : Dist} {X : List ℕ → ℕ → ℂ} :
    Holds vn comm P st true sz start X ↔ Holds vn comm P st true (fun me => n' :: (sz me).getD 1 0 :: ns) (fun me => 0 :: (start me).getD 1 0 :: ns.map fun _ => 0) X := by
  refine forall₂_congr fun me _ => ?_
  beta_reduce
  by_cases hlt : me < numBlocks n b
  · obtain ⟨e1, e2⟩ := h.lt me hlt
    beta_reduce at e1 e2
    have e1 : sz me = n' :: block n b me :: ns := by rw [← flip2_flip2 true (sz me), e1]; rfl
    have e2 : start me = 0 :: me * b :: ns.map fun _ => 0 := by rw [← flip2_flip2 true (start me), e2]; rfl
    rw [e1, e2]
    rfl
  · obtain ⟨m, e⟩ := h.ge me (by omega)
    beta_reduce at e
    have e : sz me = flip2 true (0 :: m) := by rw [← e, flip2_flip2]
    rw [e]
    rcases m with _ | ⟨m0, m⟩
    · constructor
      · intro _ l hl
        cases hl with | cons _ h1 => cases h1 with | cons h1 _ => exact absurd h1 (by simp [flip2, swap2])
      · intro _ l hl
        cases hl with | cons h0 _ => exact absurd h0 (by simp)
    · constructor
      · intro _ l hl
        cases hl with | cons _ h1 => cases h1 with | cons h1 _ => exact absurd h1 (by simp [flip2, swap2])
      · intro _ l hl
        cases hl with | cons _ h1 => cases h1 with | cons h1 _ => exact absurd h1 (by simp)

/-! ### exchange of input and output -/

def ADim.exch (d : ADim) : ADim := ⟨d.n, d.ob, d.ib⟩
def exchD (d : DDim) : DDim := ⟨d.n, d.ob, d.ib⟩

theorem exch_canonical (d : DDim) : (exchD d).canonical = exchD d.canonical := rfl

theorem zip_exch (l : List ADim) : ∀ ci co : List ℕ, ((l.map ADim.exch).zip (co.zip ci)).map (fun x => (⟨x.1.n.toNat, x.2.1, x.2.2⟩ : DDim)) =
    ((l.zip (ci.zip co)).map fun x => (⟨x.1.n.toNat, x.2.1, x.2.2⟩ : DDim)).map exchD := by
  induction l with
  | nil => intro ci co; rfl
  | cons d l ih =>
    intro ci co
    rcases ci with _ | ⟨c, ci⟩
    · rcases co with _ | ⟨o, co⟩ <;> rfl
    rcases co with _ | ⟨o, co⟩
    · rfl
    · simp only [List.map_cons, List.zip_cons_cons]
      rw [ih]
      rfl

theorem exch_default (dims : List ADim) (npes : ℕ) (h : 1 < dims.length) : defaultSz (dims.map ADim.exch) npes = (defaultSz dims npes).map exchD := by
  have e1 : ((dims.map ADim.exch).map fun d => (d.n.toNat, d.ib.toNat)) = dims.map fun d => (d.n.toNat, d.ob.toNat) := by rw [List.map_map]; rfl
  have e2 : ((dims.map ADim.exch).map fun d => (d.n.toNat, d.ob.toNat)) = dims.map fun d => (d.n.toNat, d.ib.toNat) := by rw [List.map_map]; rfl
  have len : ∀ (D : List (ℕ × ℕ)) (nb : ℕ), (defaultBlocks npes nb D).length = D.length := by
    intro D
    induction D with
    | nil => intro nb; rfl
    | cons d D ih =>
      intro nb
      obtain ⟨n, b⟩ := d
      rw [defaultBlocks]
      split <;> simp [ih]
  unfold defaultSz
  rw [e1, e2, zip_exch]
  have hl : 1 < ((dims.zip ((chosenBlocks npes (dims.map fun d => (d.n.toNat, d.ib.toNat))).zip (chosenBlocks npes (dims.map fun d => (d.n.toNat, d.ob.toNat))))).map
    fun x => (⟨x.1.n.toNat, x.2.1, x.2.2⟩ : DDim)).length := by
    simp [chosenBlocks, len, h]
  generalize ((dims.zip ((chosenBlocks npes (dims.map fun d => (d.n.toNat, d.ib.toNat))).zip (chosenBlocks npes (dims.map fun d => (d.n.toNat, d.ob.toNat))))).map
    fun x => (⟨x.1.n.toNat, x.2.1, x.2.2⟩ : DDim)) = sz at hl
  rcases sz with _ | ⟨a, _ | ⟨b, l⟩⟩
  · simp at hl
  · simp at hl
  · simp only [List.map_cons, List.map_map]
    rfl

theorem distr_exch (sz : List DDim) : distr .IB (sz.map exchD) = distr .OB sz ∧ distr .OB (sz.map exchD) = distr .IB sz := by
  unfold distr
  rw [List.map_map, List.map_map]
  exact ⟨rfl, rfl⟩

theorem exch_extra (a b : DDim) (l : List DDim) (hl : distr .IB l = distr .OB l) (howmany npes me : ℕ) : extraMulti ((a :: b :: l).map exchD) howmany npes me = extraMulti (a :: b :: l) howmany npes me := by
  unfold extraMulti
  simp only [List.map_cons, (distr_exch l).1, ← hl, List.map_map]
  have e : ∀ d : DDim, (decide (numBlocks (exchD d).n (exchD d).ib = 1) && decide (numBlocks (exchD d).n (exchD d).ob = 1)) = (decide (numBlocks d.n d.ib = 1) && decide (numBlocks d.n d.ob = 1)) :=
    fun d => Bool.and_comm _ _
  rw [e, e]
  rfl

theorem guru_long (dims : List ADim) {npes : ℕ} {a b : DDim} {l : List DDim} (h : defaultSz dims npes = a :: b :: l) (hd : dims ≠ []) (howmany me : ℕ) (bwd : Bool) (flags : MFlags) :
    localSizeGuru dims howmany npes me bwd flags =
        ⟨max (if isBlock1d (distr .IB (a :: b :: l)) && isBlock1d (distr .OB (a :: b :: l)) then extraMulti (a :: b :: l) howmany npes me else 1)
          (max (localSizes me (distr .IB (a :: b :: l))).1.prod (localSizes me (distr .OB (a :: b :: l))).1.prod) * howmany,
          (localSizes me (distr .IB (a :: b :: l))).1, (localSizes me (distr .IB (a :: b :: l))).2, (localSizes me (distr .OB (a :: b :: l))).1, (localSizes me (distr .OB (a :: b :: l))).2⟩ := by
  unfold localSizeGuru
  rw [if_neg hd, h]
  rfl

theorem exch_guru {dims : List ADim} {npes : ℕ} {a b : DDim} {l : List DDim} (h : defaultSz dims npes = a :: b :: l) (h1 : 1 < dims.length) (hl : distr .IB l = distr .OB l) (howmany me : ℕ)
    (bwd bwd' : Bool) (flags flags' : MFlags) :
    localSizeGuru (dims.map ADim.exch) howmany npes me bwd flags = ⟨(localSizeGuru dims howmany npes me bwd' flags').alloc, (localSizeGuru dims howmany npes me bwd' flags').nOut,
      (localSizeGuru dims howmany npes me bwd' flags').startOut, (localSizeGuru dims howmany npes me bwd' flags').nIn, (localSizeGuru dims howmany npes me bwd' flags').startIn⟩ := by
  have hd : dims ≠ [] := by rintro rfl; simp at h1
  have hd2 : dims.map ADim.exch ≠ [] := by simpa using hd
  rw [guru_long dims h hd, guru_long _ (show _ = exchD a :: exchD b :: l.map exchD by rw [exch_default _ _ h1, h]; rfl) hd2]
  have e := distr_exch (a :: b :: l)
  rw [List.map_cons, List.map_cons] at e
  have e' := exch_extra a b l hl howmany npes me
  rw [List.map_cons, List.map_cons] at e'
  simp only [e.1, e.2, e']
  rw [Bool.and_comm, max_comm (localSizes me (distr .OB (a :: b :: l))).1.prod]

/-! ### the inverse -/

theorem mdft_add (bwd : Bool) : ∀ (ns k : List ℕ) {ι : Type} (s : Finset ι) (c : ι → ℂ) (x : ι → List ℕ → ℂ), mdft bwd ns k (fun j => ∑ i ∈ s, c i * x i j) = ∑ i ∈ s, c i * mdft bwd ns k (x i) := by
  intro ns
  induction ns with
  | nil => intro k ι s c x; rfl
  | cons n ns ih =>
    intro k ι s c x
    rcases k with _ | ⟨k, ks⟩
    · rfl
    · simp only [mdft]
      simp_rw [ih ks s c, Finset.mul_sum]
      rw [Finset.sum_comm]
      refine Finset.sum_congr rfl fun i _ => Finset.sum_congr rfl fun j _ => ?_
      ring

theorem orth (bwd : Bool) {n a j : ℕ} (ha : a < n) (hj : j < n) :
    ∑ k ∈ Finset.range n, Complex.exp ((if !bwd then 1 else -1) * (2 * Real.pi * Complex.I) * (k * a) / n) * Complex.exp ((if bwd then 1 else -1) * (2 * Real.pi * Complex.I) * (j * k) / n) =
      if j = a then (n : ℂ) else 0 := by
  have hn : (n : ℂ) ≠ 0 := by have : n ≠ 0 := by omega
                              exact_mod_cast this
  by_cases h : j = a
  · subst h
    rw [if_pos rfl]
    rw [Finset.sum_congr rfl (g := fun _ => (1 : ℂ)) fun k _ => ?_]
    · simp
    · rw [← Complex.exp_add, ← Complex.exp_zero]
      congr 1
      cases bwd <;> simp <;> ring
  · rw [if_neg h]
    set z := Complex.exp (2 * Real.pi * Complex.I * (((if !bwd then 1 else -1) * ((a : ℤ) - j) : ℤ) : ℂ) / n) with hz
    have hprim := Complex.isPrimitiveRoot_exp n (by omega)
    have zpow : z ^ n = 1 := by
      rw [hz, ← Complex.exp_nat_mul, Complex.exp_eq_one_iff]
      refine ⟨(if !bwd then 1 else -1) * ((a : ℤ) - j), ?_⟩
      field_simp
    have zne : z ≠ 1 := by
      rw [hz]
      intro h1
      rw [Complex.exp_eq_one_iff] at h1
      obtain ⟨m, hm⟩ := h1
      have h2pi : (2 * Real.pi * Complex.I : ℂ) ≠ 0 := by
        have := Real.pi_ne_zero
        simp [Complex.I_ne_zero, this]
      rw [mul_div_assoc, mul_comm (m : ℂ)] at hm
      have hm := mul_left_cancel₀ h2pi hm
      rw [div_eq_iff hn] at hm
      have hm : (if !bwd then (1 : ℤ) else -1) * ((a : ℤ) - j) = m * n := by exact_mod_cast hm
      have hm' : ((n : ℕ) : ℤ) ∣ (a : ℤ) - j := by
        cases bwd
        · simp at hm
          exact ⟨m, by rw [hm]; ring⟩
        · simp at hm
          exact ⟨-m, by linear_combination -hm⟩
      have := Int.eq_zero_of_abs_lt_dvd hm' (by rw [abs_lt]; omega)
      omega
    have key : ∑ k ∈ Finset.range n, z ^ k = 0 := by
      have := mul_neg_geom_sum z n
      rw [zpow, sub_self] at this
      rcases mul_eq_zero.1 this with h1 | h1
      · exact absurd (sub_eq_zero.1 h1).symm zne
      · exact h1
    rw [← key]
    refine Finset.sum_congr rfl fun k _ => ?_
    rw [hz, ← Complex.exp_add, ← Complex.exp_nat_mul]
    congr 1
    cases bwd <;> simp <;> ring

theorem mdft_inv (bwd : Bool) : ∀ {ns a : List ℕ}, Index ns a → ∀ x : List ℕ → ℂ, mdft (!bwd) ns a (fun k => mdft bwd ns k x) = (ns.prod : ℂ) * x a := by
  intro ns a h
  induction h with
  | nil => intro x; simp [mdft]
  | @cons a n as ns ha h ih =>
    intro x
    simp only [mdft]
    simp_rw [mdft_add, ih, Finset.mul_sum]
    rw [Finset.sum_comm]
    have : ∀ j ∈ Finset.range n, (∑ k ∈ Finset.range n, Complex.exp ((if !bwd then 1 else -1) * (2 * Real.pi * Complex.I) * (k * a) / n) *
        (Complex.exp ((if bwd then 1 else -1) * (2 * Real.pi * Complex.I) * (j * k) / n) * ((ns.prod : ℂ) * x (j :: as)))) = if j = a then (n : ℂ) * ((ns.prod : ℂ) * x (j :: as)) else 0 := by
      intro j hj
      rw [Finset.sum_congr rfl fun k _ => (mul_assoc _ _ _).symm, ← Finset.sum_mul, orth bwd ha (Finset.mem_range.1 hj)]
      split <;> simp
    rw [Finset.sum_congr rfl this, Finset.sum_ite_eq', if_pos (Finset.mem_range.2 ha), List.prod_cons]
    push_cast
    ring

end FFTW.Mpi
