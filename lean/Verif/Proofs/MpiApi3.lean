import Verif.Proofs.MpiApi2

/-! multi-dimensional transforms: the user's layout and the planner's -/

namespace FFTW.Mpi
open Tensor Spec RdftS
variable [CLib]

theorem Simple.prod {n b : ℕ} {ns : List ℕ} {sz start : ℕ → List ℕ} (h : Simple n b ns sz start) (me : ℕ) : (sz me).prod = if me < numBlocks n b then block n b me * ns.prod else 0 := by
  split
  · rename_i hlt
    rw [(h.lt me hlt).1, List.prod_cons]
  · obtain ⟨m, e⟩ := h.ge me (by omega)
    rw [e]; simp

theorem Simple.le {n b : ℕ} {ns : List ℕ} {sz start : ℕ → List ℕ} (h : Simple n b ns sz start) (hb : 0 < b) (me : ℕ) : block n b me * ns.prod ≤ (sz me).prod := by
  rw [h.prod]
  split
  · exact le_rfl
  · rename_i hlt
    have : block n b me = 0 := by
      have h1 : n ≤ me * b := le_numBlocks hb (by omega)
      rw [block_eq]; omega
    rw [this, Nat.zero_mul]

theorem prod_flip (t : Bool) (l : List ℕ) : (flip2 t l).prod = l.prod := by
  cases t
  · rfl
  · rcases l with _ | ⟨a, _ | ⟨b, l⟩⟩
    · rfl
    · rfl
    · show b * (a * l.prod) = a * (b * l.prod)
      ring

theorem ceilDiv_le {a b : ℕ} (hb : 0 < b) : a ≤ ceilDiv a b * b := by
  unfold ceilDiv
  have := Nat.div_add_mod' (a + b - 1) b
  have := Nat.mod_lt (a + b - 1) hb
  omega

section
variable {npes : ℕ} {tIn tOut : Bool} {a b : DDim} {l : List DDim}

theorem nb_ne {n b : ℕ} (hb : 0 < b) (h : b < n) : ¬ numBlocks n b = 1 := by
  intro h1
  have := le_numBlocks (n := n) (k := 1) hb (by omega)
  omega

theorem all_local {k : BK} (hl : ∀ d ∈ l, 1 < d.n ∧ d.ib = d.n ∧ d.ob = d.n) : ((distr k l).all fun d => !decide (numBlocks d.1 d.2 > 1)) = true := by
  rw [List.all_eq_true]
  intro x hx
  obtain ⟨d, hd, rfl⟩ := List.mem_map.1 hx
  obtain ⟨h1, h2, h3⟩ := hl d hd
  have : d.b k = d.n := by cases k; exact h2; exact h3
  simp [this, numBlocks_self (show 0 < d.n by omega)]

theorem block1d_of {k : BK} (t : Bool) (hl : ∀ d ∈ l, 1 < d.n ∧ d.ib = d.n ∧ d.ob = d.n) (ha : 1 < a.n ∧ 0 < a.b k) (hb : 1 < b.n ∧ 0 < b.b k) (h : if t then a.b k = a.n else b.b k = b.n)
    (h2 : if t then b.b k < b.n else a.b k < a.n) : isBlock1d (distr k (a :: b :: l)) = true := by
  show isBlock1d ((a.n, a.b k) :: (b.n, b.b k) :: distr k l) = true
  unfold isBlock1d
  cases t with
  | false =>
    simp only [Bool.false_eq_true, if_false] at h h2
    simp only
    rw [if_neg (nb_ne ha.2 h2), List.all_cons, all_local hl, h, numBlocks_self (by omega)]
    rfl
  | true =>
    simp only [if_true] at h h2
    simp only
    rw [h, if_pos (numBlocks_self (by omega)), if_neg (nb_ne hb.2 h2)]
    exact all_local hl

theorem dist_whole {k : BK} (hl : ∀ d ∈ l, 1 < d.n ∧ d.ib = d.n ∧ d.ob = d.n) : distr k l = whole (l.map DDim.n) := by
  unfold distr whole
  rw [List.map_map]
  refine List.map_congr_left fun d hd => ?_
  obtain ⟨h1, h2, h3⟩ := hl d hd
  have : d.b k = d.n := by cases k; exact h2; exact h3
  simp [this]

/-- the distributed dimension -/
def fst' (t : Bool) (a b : DDim) : DDim := if t then b else a
/-- the other one -/
def snd' (t : Bool) (a b : DDim) : DDim := if t then a else b

theorem Lay.simple (h : Lay npes tIn tOut a b l) (k : BK) (t : Bool) (ht : t = match k with | .IB => tIn | .OB => tOut) :
    Simple (fst' t a b).n ((fst' t a b).b k) ((snd' t a b).n :: l.map DDim.n) (fun me => flip2 t (localSizes me (distr k (a :: b :: l))).1) (fun me => flip2 t (localSizes me (distr k (a :: b :: l))).2) := by
  have hk : if t then a.b k = a.n else b.b k = b.n := by
    cases k
    · subst ht; exact h.inn
    · subst ht; exact h.out
  have hpos : ∀ n ∈ (snd' t a b).n :: l.map DDim.n, 0 < n := by
    intro n hn
    rcases List.mem_cons.1 hn with rfl | hn
    · have := h.posA.1
      have := h.posB.1
      unfold snd'
      split <;> omega
    · obtain ⟨d, hd, rfl⟩ := List.mem_map.1 hn
      have := (h.posL d hd).1
      omega
  have := simple_sizes t (fst' t a b).n ((fst' t a b).b k) hpos
  have e : distr k (a :: b :: l) = if t then ((snd' t a b).n, (snd' t a b).n) :: ((fst' t a b).n, (fst' t a b).b k) :: whole (l.map DDim.n)
      else ((fst' t a b).n, (fst' t a b).b k) :: ((snd' t a b).n, (snd' t a b).n) :: whole (l.map DDim.n) := by
    show (a.n, a.b k) :: (b.n, b.b k) :: distr k l = _
    rw [dist_whole h.posL]
    cases t with
    | false => simp only [Bool.false_eq_true, if_false] at hk ⊢; rw [hk]; rfl
    | true => simp only [if_true] at hk ⊢; rw [hk]; rfl
  rw [e]
  exact this

/-- what `local_size_guru` returns is enough -/
theorem Lay.extra (h : Lay npes tIn tOut a b l) (hp : 1 < npes) (t : Bool) {howmany : ℕ} (hh : 0 < howmany) (me : ℕ) :
    (isBlock1d (distr .IB (a :: b :: l)) && isBlock1d (distr .OB (a :: b :: l))) = true ∧
    (fst' t a b).n * block (((snd' t a b).n :: l.map DDim.n).prod * howmany) (defaultBlock (((snd' t a b).n :: l.map DDim.n).prod * howmany) npes) me ≤ extraMulti (a :: b :: l) howmany npes me * howmany := by
  rcases h.one with h1 | ⟨_, h1, h2⟩
  · omega
  refine ⟨?_, ?_⟩
  · rw [block1d_of (k := .IB) tIn h.posL ⟨h.posA.1, h.posA.2.1⟩ ⟨h.posB.1, h.posB.2.1⟩ h.inn h1, block1d_of (k := .OB) tOut h.posL ⟨h.posA.1, h.posA.2.2.2.1⟩ ⟨h.posB.1, h.posB.2.2.2.1⟩ h.out h2]
    rfl
  · rw [extraMulti]
    simp only [List.prod_cons]
    cases t with
    | false =>
      simp only [fst', snd', Bool.false_eq_true, if_false]
      rw [Nat.mul_comm (b.n * _) howmany]
      refine (ceilDiv_le hh).trans (Nat.mul_le_mul_right _ ?_)
      exact (le_max_right _ _).trans (le_max_left _ _)
    | true =>
      simp only [fst', snd', if_true]
      rw [Nat.mul_comm (a.n * _) howmany, ← Nat.mul_assoc]
      refine (ceilDiv_le hh).trans (Nat.mul_le_mul_right _ ?_)
      exact le_max_right _ _

/-- the problem -/
theorem Lay.canonical (h : Lay npes tIn tOut a b l) : canonical (a :: b :: l) = a :: b :: l := by
  unfold Mpi.canonical
  rw [List.filter_eq_self.2]
  · have e : ∀ l' : List DDim, (∀ d ∈ l', 1 < d.n ∧ d.ib = d.n ∧ d.ob = d.n) → l'.map DDim.canonical = l' := by
      intro l' hl
      induction l' with
      | nil => rfl
      | cons d l' ih =>
        obtain ⟨h1, h2, h3⟩ := hl d (by simp)
        rw [List.map_cons, ih fun x hx => hl x (by simp [hx]), canonical_self ⟨h1, by omega, by omega, by omega, by omega⟩]
    rw [List.map_cons, List.map_cons, canonical_self h.posA, canonical_self h.posB, e l h.posL]
  · intro d hd
    simp only [List.mem_cons] at hd
    rcases hd with rfl | rfl | hd
    · exact decide_eq_true h.posA.1
    · exact decide_eq_true h.posB.1
    · exact decide_eq_true (h.posL d hd).1

/-- the problem made by `mkproblem_dft` -/
structure Made (p : MDftP) (tIn tOut : Bool) (a b : DDim) (l : List DDim) : Prop where
  sz : p.sz = fst' tIn a b :: snd' tIn a b :: l
  flags : p.flags = { transposedOut := xor tIn tOut }

theorem made {sz : List DDim} (h : Lay npes tIn tOut a b l) (hsz : sz = a :: b :: l) {flags : MFlags} (hf : flags.onlyTransposed = true) (hi : flags.transposedIn = tIn) (ho : flags.transposedOut = tOut)
    (vn : ℕ) (I O : ℕ → Ptr) (comm : Comm) (bwd : Bool) (space : ℕ → ℕ) : Made (mkDft sz vn I O comm bwd flags space) tIn tOut a b l := by
  subst hsz
  obtain ⟨si, so, ti, tt, bv⟩ := flags
  simp only at hi ho
  subst hi ho
  simp only [MFlags.onlyTransposed, Bool.and_eq_true, Bool.not_eq_true'] at hf
  obtain ⟨⟨h1, h2⟩, h3⟩ := hf
  subst h1 h2 h3
  unfold mkDft
  simp only [h.canonical]
  cases ti with
  | true => exact ⟨rfl, by cases tt <;> rfl⟩
  | false => exact ⟨rfl, by cases tt <;> rfl⟩

variable {p : MDftP}

theorem Made.inD (m : Made p tIn tOut a b l) (h : Lay npes tIn tOut a b l) : p.inD = ((fst' tIn a b).n, (fst' tIn a b).ib) :: whole ((snd' tIn a b).n :: l.map DDim.n) := by
  unfold MDftP.inD
  rw [m.sz, List.map_cons, List.map_cons, whole_in fun e he => (h.posL e he).2.1]
  have : (snd' tIn a b).ib = (snd' tIn a b).n := by
    have := h.inn
    unfold snd'
    split <;> rename_i ht
    · simpa [ht] using this
    · simpa [ht] using this
  rw [this]; rfl

theorem Made.outD (m : Made p tIn tOut a b l) (h : Lay npes tIn tOut a b l) : p.outD = ((fst' tOut a b).n, (fst' tOut a b).ob) :: whole ((snd' tOut a b).n :: l.map DDim.n) := by
  have e : p.outD = ((fst' tOut a b).n, (fst' tOut a b).ob) :: ((snd' tOut a b).n, (snd' tOut a b).ob) :: l.map fun d => (d.n, d.ob) := by
    unfold MDftP.outD
    rw [m.sz, m.flags]
    cases tIn <;> cases tOut <;> rfl
  rw [e, whole_out fun e he => (h.posL e he).2.2]
  have : (snd' tOut a b).ob = (snd' tOut a b).n := by
    have := h.out
    unfold snd'
    split <;> rename_i ht
    · simpa [ht] using this
    · simpa [ht] using this
  rw [this]; rfl

theorem Made.six (m : Made p tIn tOut a b l) : p.sixStep = none := six_long m.sz

theorem Made.ns (m : Made p tIn tOut a b l) : (p.sz.map fun d => d.n) = flip2 tIn ((a :: b :: l).map DDim.n) := by
  rw [m.sz]
  cases tIn <;> rfl

theorem Made.inAt (m : Made p tIn tOut a b l) (h : Lay npes tIn tOut a b l) (j : List ℕ) : p.inAt j = place (((fst' tIn a b).n, (fst' tIn a b).ib) :: whole ((snd' tIn a b).n :: l.map DDim.n)) j := by
  rw [inAt_none m.six, m.inD h]

theorem Made.outAt (m : Made p tIn tOut a b l) (h : Lay npes tIn tOut a b l) (k : List ℕ) :
    p.outAt (flip2 tIn k) = place (((fst' tOut a b).n, (fst' tOut a b).ob) :: whole ((snd' tOut a b).n :: l.map DDim.n)) (flip2 tOut k) := by
  rw [outAt_none m.six, m.outD h]
  congr 1
  rw [m.flags]
  cases tIn <;> cases tOut <;> rcases k with _ | ⟨x, _ | ⟨y, k⟩⟩ <;> rfl

theorem prod_two (t : Bool) (f : DDim → ℕ) : f (fst' t a b) * (f (snd' t a b) * (l.map f).prod) = f a * (f b * (l.map f).prod) := by
  cases t
  · rfl
  · show f b * (f a * _) = _
    ring

/-- the planner may be asked for it -/
theorem Made.ok (m : Made p tIn tOut a b l) (h : Lay npes tIn tOut a b l) (hc : p.comm.length = npes) (hnd : p.comm.Nodup) (hv : 0 < p.vn) (hap : MApart p.comm p.space p.inpl p.I p.O)
    (hi : numBlocksTotal (distr .IB (a :: b :: l)) ≤ npes) (ho : numBlocksTotal (distr .OB (a :: b :: l)) ≤ npes)
    (hN : ∀ me < npes, 2 * (max (if isBlock1d (distr .IB (a :: b :: l)) && isBlock1d (distr .OB (a :: b :: l)) then extraMulti (a :: b :: l) p.vn npes me else 1)
      (max (localSizes me (distr .IB (a :: b :: l))).1.prod (localSizes me (distr .OB (a :: b :: l))).1.prod) * p.vn) ≤ p.space (p.comm.at me)) (fl : Flags) : p.Ok fl := by
  have posL : ∀ n ∈ l.map DDim.n, 0 < n := by
    intro n hn
    obtain ⟨d, hd, rfl⟩ := List.mem_map.1 hn
    have := (h.posL d hd).1
    omega
  have posS : ∀ t, ∀ n ∈ (snd' t a b).n :: l.map DDim.n, 0 < n := by
    intro t n hn
    rcases List.mem_cons.1 hn with rfl | hn
    · have := h.posA.1
      have := h.posB.1
      unfold snd'
      split <;> omega
    · exact posL n hn
  have posF : ∀ t, 1 < (fst' t a b).n ∧ 0 < (fst' t a b).ib ∧ (fst' t a b).ib ≤ (fst' t a b).n ∧ 0 < (fst' t a b).ob ∧ (fst' t a b).ob ≤ (fst' t a b).n := by
    intro t; cases t; exact h.posA; exact h.posB
  have posS' : ∀ t, 1 < (snd' t a b).n ∧ 0 < (snd' t a b).ib ∧ (snd' t a b).ib ≤ (snd' t a b).n ∧ 0 < (snd' t a b).ob ∧ (snd' t a b).ob ≤ (snd' t a b).n := by
    intro t; cases t; exact h.posB; exact h.posA
  have room : ∀ {x me : ℕ}, me < p.comm.length → x ≤ (max (if isBlock1d (distr .IB (a :: b :: l)) && isBlock1d (distr .OB (a :: b :: l)) then extraMulti (a :: b :: l) p.vn npes me else 1)
      (max (localSizes me (distr .IB (a :: b :: l))).1.prod (localSizes me (distr .OB (a :: b :: l))).1.prod) * p.vn) → x * 2 ≤ p.space (p.comm.at me) := by
    intro x me hme hx
    have := hN me (by omega)
    omega
  have roomK : ∀ {me : ℕ} (k : BK) (t : Bool), (t = match k with | .IB => tIn | .OB => tOut) → me < p.comm.length →
      block (fst' t a b).n ((fst' t a b).b k) me * ((snd' t a b).n :: l.map DDim.n).prod * p.vn * 2 ≤ p.space (p.comm.at me) := by
    intro me k t ht hme
    refine room hme (Nat.mul_le_mul_right _ ?_)
    have := (h.simple k t ht).le (by have := posF t; cases k; exact this.2.1; exact this.2.2.2.1) me
    rw [prod_flip] at this
    refine this.trans ((?_ : _ ≤ _).trans (le_max_right _ _))
    cases k
    · exact le_max_left _ _
    · exact le_max_right _ _
  refine ⟨hnd, by rw [m.sz]; simp, hv, ?_, ?_, ?_, ?_, ?_, ?_, ?_, ?_, hap⟩
  · intro d hd
    rw [m.sz] at hd
    simp only [List.mem_cons] at hd
    rcases hd with rfl | rfl | hd
    · exact posF tIn
    · exact posS' tIn
    · obtain ⟨h1, h2, h3⟩ := h.posL d hd
      exact ⟨h1, by omega, by omega, by omega, by omega⟩
  · rw [m.sz, hc]
    refine le_trans (le_of_eq ?_) hi
    rw [List.map_cons, List.map_cons, List.prod_cons, List.prod_cons, prod_two tIn fun d => numBlocks d.n d.ib]
    unfold numBlocksTotal distr
    rw [List.map_map]
    rfl
  · rw [m.sz, hc]
    refine le_trans (le_of_eq ?_) ho
    rw [List.map_cons, List.map_cons, List.prod_cons, List.prod_cons, prod_two tIn fun d => numBlocks d.n d.ob]
    unfold numBlocksTotal distr
    rw [List.map_map]
    rfl
  · intro r hr
    rw [inSize_none m.six, m.inD h, localSize_cons (posS tIn)]
    exact roomK .IB tIn rfl hr
  · intro r hr
    rw [outSize_none m.six, m.outD h, localSize_cons (posS tOut)]
    exact roomK .OB tOut rfl hr
  · intro _ hfl d l' hsz _ _ r hr
    rw [m.sz] at hsz
    obtain ⟨rfl, rfl⟩ := List.cons.inj hsz
    rcases h.one with h1 | ⟨h1, _⟩
    · -- one process
      have hr0 : r = 0 := by omega
      subst hr0
      have k := roomK (me := 0) .IB tIn rfl hr
      have e : (fst' tIn a b).ib = (fst' tIn a b).n := by
        have hb : numBlocks (fst' tIn a b).n (fst' tIn a b).ib ≤ 1 := by
          have hpp : numBlocksTotal (distr .IB (a :: b :: l)) = numBlocks (fst' tIn a b).n (fst' tIn a b).ib := by
            have := total_cons (fst' tIn a b).n (fst' tIn a b).ib (posS tIn)
            rw [← this, ← m.inD h]
            unfold MDftP.inD numBlocksTotal distr
            rw [m.sz]
            simp only [List.map_cons, List.prod_cons, List.map_map]
            exact (prod_two tIn (l := l) fun d => numBlocks d.n d.ib).symm
          omega
        have := le_numBlocks (k := 1) (posF tIn).2.1 hb
        have := (posF tIn).2.2.1
        omega
      have e2 : ∀ X : ℕ, block X (defaultBlock X npes) 0 = X := by
        intro X
        subst h1
        unfold defaultBlock
        rw [Nat.div_one, Nat.add_sub_cancel, block_self]
      rw [hc, e2]
      simp only [DDim.b, e, block_self] at k
      refine le_trans (le_of_eq ?_) k
      simp only [List.map_cons]
      ring
    · refine room hr ?_
      have := h.extra h1 tIn hv r
      rw [hc, if_pos this.1]
      exact this.2.trans (Nat.mul_le_mul_right _ (le_max_left _ _))
  · intro r s hs
    rw [m.six] at hs
    simp at hs
  · intro _ _ d hd
    rw [m.sz] at hd
    simp at hd

end

end FFTW.Mpi
