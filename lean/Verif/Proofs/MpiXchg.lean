import Verif.Proofs.MpiPost2
import Verif.Proofs.MpiExchange

/-! the global exchange of blocks -/

namespace FFTW.MpiExchange
open FFTW.MpiSched

/-- what an exchange leaves alone -/
theorem exchange_frame {α : Type} {p : Prob} (npes : Nat) (sched : Nat → List Int) :
    ∀ (k s : Nat) (mem mem' : Int → Int → α), exchange p npes sched k s mem = some mem' →
      ∀ w a : ℤ, (∀ q : ℤ, 0 ≤ q → q < npes → 0 ≤ w → w < npes → ¬ (rbo p w q ≤ a ∧ a < rbo p w q + sbs p q w)) → mem' w a = mem w a := by
  intro k
  induction k with
  | zero => intro s mem mem' h w a _; rw [exchange] at h; obtain rfl := Option.some.inj h; rfl
  | succ k ih =>
    intro s mem mem' h w a ha
    rw [exchange] at h
    simp only [Option.bind_eq_bind] at h
    obtain ⟨m1, h1, h2⟩ := Option.bind_eq_some_iff.1 h
    rw [ih _ _ _ h2 w a ha]
    unfold stepAll at h1
    split at h1
    · rename_i hc
      obtain rfl := Option.some.inj h1
      beta_reduce
      split
      · rename_i hw
        have := hc ⟨w.toNat, by omega⟩
        exact recvStep_out _ _ _ _ (ha _ this.1 this.2.1 hw.1 hw.2)
      · rfl
    · exact absurd h1 (by simp)

theorem transposeChunks_frame {α : Type} {p : Prob} {junk : Nat → List Int} {mem mem' : Int → Int → α} (h : transposeChunks p junk mem = some mem') :
    ∀ w a : ℤ, (∀ q : ℤ, 0 ≤ q → q < nPes p → 0 ≤ w → w < nPes p → ¬ (rbo p w q ≤ a ∧ a < rbo p w q + sbs p q w)) → mem' w a = mem w a := by
  unfold transposeChunks at h
  simp only [Option.bind_eq_bind] at h
  obtain ⟨m1, h1, h2⟩ := Option.bind_eq_some_iff.1 h
  exact exchange_frame _ _ _ _ _ _ h2

end FFTW.MpiExchange

namespace FFTW.Mpi
open Tensor Spec RdftS
open MpiExchange MpiSched

theorem recvStep2_out {α : Type} {p : Prob} (src dst : Int → Int → α) (w q a : Int)
    (h : ¬ (rbo p w q ≤ a ∧ a < rbo p w q + MpiExchange.sbs p q w)) : recvStep2 p src dst w q a = dst w a := by
  unfold recvStep2; rw [if_neg h]

theorem exchange2_ok {α : Type} {p : Prob} (hp : p.Ok) (npes : Nat) (sched : Nat → List Int) (σ : Nat → Nat)
    (hσ : ∀ k, k < npes → σ k < npes) (hinj : ∀ k l, k < npes → l < npes → σ k = σ l → k = l)
    (hsch : ∀ w, w < npes → sched w = (List.range npes).map fun k => meet npes w (σ k)) (src : Int → Int → α) :
    ∀ (k s : Nat) (mem : Int → Int → α), s + k = npes →
      (∀ w : Nat, w < npes → ∀ j, j < s → ∀ t, 0 ≤ t → t < sbs p (meet npes w (σ j)) w →
        mem w (rbo p w (meet npes w (σ j)) + t) = src (meet npes w (σ j)) (sbo p (meet npes w (σ j)) w + t)) →
      ∃ mem', exchange2 p npes sched src k s mem = some mem' ∧
        (∀ w : Nat, w < npes → ∀ j, j < npes → ∀ t, 0 ≤ t → t < sbs p (meet npes w (σ j)) w →
          mem' w (rbo p w (meet npes w (σ j)) + t) = src (meet npes w (σ j)) (sbo p (meet npes w (σ j)) w + t)) ∧
        ∀ w a : ℤ, (∀ q : ℤ, 0 ≤ q → q < npes → 0 ≤ w → w < npes → ¬ (rbo p w q ≤ a ∧ a < rbo p w q + sbs p q w)) → mem' w a = mem w a := by
  intro k
  induction k with
  | zero =>
    intro s mem hs h1
    exact ⟨mem, rfl, fun w hw j hj => h1 w hw j (by omega), fun _ _ _ => rfl⟩
  | succ k ih =>
    intro s mem hs h1
    have hsn : s < npes := by omega
    have hpart : ∀ w : Nat, w < npes → (sched w).getD s (-1) = meet npes w (σ s) := by
      intro w hw
      rw [hsch w hw, List.getD_eq_getElem?_getD]
      simp [hsn]
    have hr : ∀ (w : Nat), w < npes → ∀ j, j < npes → 0 ≤ meet npes w (σ j) ∧ meet npes w (σ j) < npes :=
      fun w hw j hj => meet_range npes w (σ j) (by omega) (by omega) (hσ j hj)
    have hne : ∀ (w : Nat), w < npes → ∀ i j, i < npes → j < npes → i ≠ j → meet npes w (σ i) ≠ meet npes w (σ j) := by
      intro w hw i j hi hj hij hc
      exact hij (hinj i j hi hj (meet_inj npes w _ _ (by omega) (by omega) (hσ i hi) (hσ j hj) hc))
    rw [exchange2]
    simp only
    rw [if_pos]
    swap
    · intro w
      have hw := w.2
      rw [hpart w hw]
      have hrr := hr w hw s hsn
      refine ⟨hrr.1, hrr.2, ?_, ?_⟩
      · rw [hpart _ (by omega)]
        rw [Int.toNat_of_nonneg hrr.1]
        exact meet_invol npes w (σ s) (by omega) (by omega) (hσ s hsn)
      · rw [rbs_eq_sbs]
    have hval : ∀ (w : Nat), w < npes → ∀ a, (if 0 ≤ (w : Int) ∧ (w : Int) < npes then recvStep2 p src mem w ((sched (w : Int).toNat).getD s (-1)) a else mem w a) =
        recvStep2 p src mem w (meet npes w (σ s)) a := by
      intro w hw a
      rw [if_pos (by omega), show ((w : Int).toNat) = w by omega, hpart w hw]
    obtain ⟨mem', e1, e2, e3⟩ := ih (s + 1) (fun w a => if 0 ≤ w ∧ w < npes then recvStep2 p src mem w ((sched w.toNat).getD s (-1)) a else mem w a) (by omega) (by
      intro w hw j hj t ht0 ht
      rw [hval w hw]
      by_cases hjs : j = s
      · subst hjs
        unfold recvStep2
        rw [if_pos ⟨by omega, by omega⟩]
        congr 1; omega
      · rw [recvStep2_out]
        · exact h1 w hw j (by omega) t ht0 ht
        · rintro ⟨c1, c2⟩
          exact no_overlap_recv hp w _ _ (hne w hw s j hsn (by omega) (by omega)) _ c1 c2 (by omega) (by omega))
    refine ⟨mem', e1, e2, fun w a ha => ?_⟩
    rw [e3 w a ha]
    split
    · rename_i hw
      have h4 := hval w.toNat (by omega) a
      rw [Int.toNat_of_nonneg hw.1, if_pos hw] at h4
      rw [h4]
      have h5 := hr w.toNat (by omega) s hsn
      rw [Int.toNat_of_nonneg hw.1] at h5
      exact recvStep2_out _ _ _ _ _ (ha _ h5.1 h5.2 hw.1 hw.2)
    · rfl

variable [CLib]
variable {p : TransP}

/-- effect of a global exchange: block `q` of every process comes from process `q` -/
structure XOK (p : TransP) (S R : ℕ → Ptr) (st st' : Dist) : Prop where
  other : ∀ w, w ∉ p.comm → st' w = st w
  frame : ∀ me < p.comm.length, Frame (st (p.comm.at me)) (st' (p.comm.at me)) (In (R (p.comm.at me)) (p.nout me))
  val : ∀ me < p.comm.length, ∀ q < p.comm.length, ∀ t < p.sbs q me,
    (st' (p.comm.at me)).mem (R (p.comm.at me) + ((p.rbo me q + t : ℕ) : ℤ)) = (st (p.comm.at q)).mem (S (p.comm.at q) + ((p.sbo q me + t : ℕ) : ℤ))

theorem rbo_lt {me q t : ℕ} (h : t < p.sbs q me) : p.rbo me q + t < p.nout me := by
  have h0 : 0 < p.b q := by
    by_contra h'
    have : p.b q = 0 := by omega
    unfold TransP.sbs at h
    rw [this] at h; simp at h
  have h1 : q * p.block + p.b q ≤ p.nx := by
    unfold TransP.b at h0 ⊢
    rw [block_eq] at h0 ⊢
    omega
  have h2 : (q * p.block + p.b q) * (p.bt me * p.vn) ≤ p.nx * (p.bt me * p.vn) := Nat.mul_le_mul_right _ h1
  unfold TransP.rbo TransP.nout
  unfold TransP.sbs at h
  have e1 : (q * p.block + p.b q) * (p.bt me * p.vn) = q * (p.block * p.bt me) * p.vn + p.b q * p.bt me * p.vn := by ring
  have e2 : p.nx * (p.bt me * p.vn) = p.nx * p.bt me * p.vn := by ring
  omega

theorem sbo_lt {me q t : ℕ} (h : t < p.sbs me q) : p.sbo me q + t < p.b me * p.ny * p.vn := by
  have h0 : 0 < p.bt q := by
    by_contra h'
    have : p.bt q = 0 := by omega
    unfold TransP.sbs at h
    rw [this] at h; simp at h
  have h1 : q * p.tblock + p.bt q ≤ p.ny := by
    unfold TransP.bt at h0 ⊢
    rw [block_eq] at h0 ⊢
    omega
  have h2 : (q * p.tblock + p.bt q) * (p.b me * p.vn) ≤ p.ny * (p.b me * p.vn) := Nat.mul_le_mul_right _ h1
  unfold TransP.sbo
  unfold TransP.sbs at h
  have e1 : (q * p.tblock + p.bt q) * (p.b me * p.vn) = q * (p.b me * p.tblock) * p.vn + p.b me * p.bt q * p.vn := by ring
  have e2 : p.ny * (p.b me * p.vn) = p.b me * p.ny * p.vn := by ring
  omega

theorem rbo_inj {me q q' t t' : ℕ} (h : t < p.sbs q me) (h' : t' < p.sbs q' me) (e : p.rbo me q + t = p.rbo me q' + t') : q = q' := by
  have hK : ∀ q, p.sbs q me ≤ p.block * p.bt me * p.vn := fun q => Nat.mul_le_mul_right _ (Nat.mul_le_mul_right _ (block_le _ _ _))
  have e1 : ∀ q, p.rbo me q = q * (p.block * p.bt me * p.vn) := fun q => by unfold TransP.rbo; ring
  rw [e1, e1] at e
  exact (lin_inj (lt_of_lt_of_le h (hK q)) (lt_of_lt_of_le h' (hK q')) e).1

theorem at_mem {c : Comm} {r : ℕ} (h : r < c.length) : c.at r ∈ c := by
  unfold Comm.at
  rw [List.getD_eq_getElem _ _ h]
  exact List.getElem_mem h

theorem idx_at {c : Comm} (hn : c.Nodup) {r : ℕ} (h : r < c.length) : c.idxOf (c.at r) = r := by
  unfold Comm.at
  rw [List.getD_eq_getElem _ _ h]
  exact hn.idxOf_getElem r h

theorem at_idx {c : Comm} {w : ℕ} (h : w ∈ c) : c.idxOf w < c.length ∧ c.at (c.idxOf w) = w := by
  have h1 := List.idxOf_lt_length_of_mem h
  refine ⟨h1, ?_⟩
  unfold Comm.at
  rw [List.getD_eq_getElem _ _ h1]
  exact List.getElem_idxOf h1

theorem run_at {c : Comm} (hn : c.Nodup) {r : ℕ} (h : r < c.length) (f : ℕ → State → State) (st : Dist) : c.run f st (c.at r) = f r (st (c.at r)) := by
  unfold Comm.run
  rw [if_pos (at_mem h), idx_at hn h]

theorem run_other {c : Comm} {w : ℕ} (h : w ∉ c) (f : ℕ → State → State) (st : Dist) : c.run f st w = st w := by
  unfold Comm.run
  rw [if_neg h]

theorem recvFrom_some {n : ℕ} {rbs rbo : ℕ → ℕ} {q t : ℕ} (hq : q < n) (ht : t < rbs q)
    (huniq : ∀ q' < n, ∀ t' < rbs q', rbo q + t = rbo q' + t' → q' = q) : recvFrom n rbs rbo ((rbo q + t : ℕ) : ℤ) = some q := by
  unfold recvFrom
  cases h : (List.range n).find? fun q' => decide ((rbo q' : ℤ) ≤ ((rbo q + t : ℕ) : ℤ) ∧ ((rbo q + t : ℕ) : ℤ) < rbo q' + rbs q') with
  | none =>
    have := List.find?_eq_none.1 h q (List.mem_range.2 hq)
    simp at this
    omega
  | some q' =>
    have h1 := List.find?_some h
    have h2 := List.mem_range.1 (List.mem_of_find?_eq_some h)
    simp only [decide_eq_true_eq] at h1
    rw [huniq q' h2 (rbo q + t - rbo q') (by omega) (by omega)]

theorem recvFrom_none {n : ℕ} {rbs rbo : ℕ → ℕ} {x : ℤ} (h : ∀ q < n, ∀ t < rbs q, x ≠ ((rbo q + t : ℕ) : ℤ)) : recvFrom n rbs rbo x = none := by
  unfold recvFrom
  rw [List.find?_eq_none]
  intro q hq
  have hq := List.mem_range.1 hq
  simp only [decide_eq_true_eq]
  rintro ⟨h1, h2⟩
  exact h q hq (x - rbo q).toNat (by omega) (by push_cast; omega)

/-- `MPI_Alltoallv` with the counts and displacements of the plan, whatever functions give them -/
theorem alltoallv_ok (hn : p.comm.Nodup) {sbs sbo rbs rbo : ℕ → ℕ → ℕ} {S R : ℕ → Ptr}
    (e1 : ∀ me < p.comm.length, ∀ q < p.comm.length, sbs me q = p.sbs me q) (e2 : ∀ me < p.comm.length, ∀ q < p.comm.length, sbo me q = p.sbo me q)
    (e3 : ∀ me < p.comm.length, ∀ q < p.comm.length, rbs me q = p.sbs q me) (e4 : ∀ me < p.comm.length, ∀ q < p.comm.length, rbo me q = p.rbo me q)
    (hf : ∀ me < p.comm.length, ∀ x < p.b me * p.ny * p.vn, ∀ y < p.nout me, S (p.comm.at me) + (x : ℤ) ≠ R (p.comm.at me) + (y : ℤ)) (st : Dist) :
    XOK p S R st (alltoallv p.comm sbs sbo rbs rbo S R st) := by
  have hc : (∀ q < p.comm.length, ∀ r < p.comm.length, sbs q r = rbs r q) ∧ NoAlias p.comm sbs sbo rbs rbo S R := by
    refine ⟨fun q hq r hr => by rw [e1 q hq r hr, e3 r hr q hq], ?_⟩
    intro me hme q hq r hr x hx y hy
    rw [e1 me hme q hq] at hx
    rw [e3 me hme r hr] at hy
    rw [e2 me hme q hq, e4 me hme r hr]
    exact hf me hme _ (sbo_lt hx) _ (rbo_lt hy)
  unfold alltoallv
  rw [if_pos hc]
  constructor
  · intro w hw; rw [if_neg hw]
  · intro me hme
    rw [if_pos (at_mem hme)]
    simp only [idx_at hn hme]
    refine ⟨le_rfl, fun a _ hin => ?_⟩
    dsimp only
    split
    · rename_i hblk
      rw [recvFrom_none]
      intro q hq t ht hx
      rw [e3 me hme q hq] at ht
      rw [e4 me hme q hq] at hx
      refine hin ⟨_, rbo_lt ht, ?_⟩
      exact Ptr.ext hblk (by rw [← hx]; show a.off = (R (p.comm.at me)).off + (a.off - (R (p.comm.at me)).off); omega)
    · rfl
  · intro me hme q hq t ht
    rw [if_pos (at_mem hme)]
    simp only [idx_at hn hme]
    rw [if_pos (by rw [Ptr.add_blk])]
    have hx : (R (p.comm.at me) + ((p.rbo me q + t : ℕ) : ℤ)).off - (R (p.comm.at me)).off = ((rbo me q + t : ℕ) : ℤ) := by
      rw [e4 me hme q hq]
      show (R (p.comm.at me)).off + ((p.rbo me q + t : ℕ) : ℤ) - (R (p.comm.at me)).off = _
      omega
    rw [hx, recvFrom_some hq (by rw [e3 me hme q hq]; exact ht)]
    · dsimp only
      rw [e2 q hq me hme]
      congr 2
      push_cast; omega
    · intro q' hq' t' ht' e
      rw [e4 me hme q hq, e4 me hme q' hq'] at e
      rw [e3 me hme q' hq'] at ht'
      exact (rbo_inj ht ht' e).symm

theorem exchangeAll_ok (hn : p.comm.Nodup) {S R : ℕ → Ptr}
    (hf : ∀ me < p.comm.length, ∀ x < p.b me * p.ny * p.vn, ∀ y < p.nout me, S (p.comm.at me) + (x : ℤ) ≠ R (p.comm.at me) + (y : ℤ)) (st : Dist) :
    XOK p S R st (exchangeAll p S R st) := by
  unfold exchangeAll
  split
  · rename_i he
    have hb : ∀ pe < p.comm.length, p.b pe = p.block ∧ p.bt pe = p.tblock := by
      intro pe hpe
      unfold TransP.equalBlocks at he
      rw [List.all_eq_true] at he
      simpa using he pe (List.mem_range.2 hpe)
    have e0 : ∀ me < p.comm.length, ∀ q < p.comm.length, p.sbs me q = p.block * p.tblock * p.vn := fun me hme q hq => by
      unfold TransP.sbs; rw [(hb me hme).1, (hb q hq).2]
    have e0' : ∀ me < p.comm.length, ∀ q < p.comm.length, p.rbs me q = p.block * p.tblock * p.vn := fun me hme q hq => by
      unfold TransP.rbs; rw [(hb me hme).2, (hb q hq).1]
    refine alltoallv_ok hn ?_ ?_ ?_ ?_ hf st
    · intro me hme q hq
      beta_reduce
      rw [e0 me hme q hq, e0 me hme 0 (by omega)]
    · intro me hme q hq
      beta_reduce
      rw [e0 me hme 0 (by omega)]
      unfold TransP.sbo
      rw [(hb me hme).1]; ring
    · intro me hme q hq
      beta_reduce
      rw [e0 q hq me hme, e0' me hme 0 (by omega)]
    · intro me hme q hq
      beta_reduce
      rw [e0' me hme 0 (by omega)]
      unfold TransP.rbo
      rw [(hb me hme).2]; ring
  · exact alltoallv_ok hn (fun _ _ _ _ => rfl) (fun _ _ _ _ => rfl) (fun _ _ _ _ => rfl) (fun _ _ _ _ => rfl) hf st

theorem blockZ_nat (n b : ℕ) (w : ℕ) : blockZ n b w = (Mpi.block n b w : ℤ) := by
  unfold blockZ Mpi.block
  simp only
  have e : ((w : ℤ) * b) = ((w * b : ℕ) : ℤ) := by push_cast; rfl
  rw [e]
  by_cases h1 : n ≤ w * b
  · rw [if_pos (by omega), if_pos h1]; rfl
  · rw [if_neg (by omega), if_neg h1]
    by_cases h2 : n - w * b > b
    · rw [if_pos (by omega), if_pos h2]
    · rw [if_neg (by omega), if_neg h2]; omega

theorem numBlocksZ_le {n b k : ℕ} (hb : 0 < b) (h : n ≤ k * b) : (numBlocksZ n b).toNat ≤ k := by
  unfold numBlocksZ
  have : ((n : ℤ) + b - 1) / b < k + 1 := by
    rw [Int.ediv_lt_iff_lt_mul (by omega)]
    have : ((k * b : ℕ) : ℤ) = k * b := by push_cast; rfl
    have e : ((k : ℤ) + 1) * b = k * b + b := by ring
    omega
  omega

theorem le_numBlocksZ {n b : ℕ} (hb : 0 < b) : n ≤ (numBlocksZ n b).toNat * b := by
  unfold numBlocksZ
  have h0 : 0 ≤ ((n : ℤ) + b - 1) / b := Int.ediv_nonneg (by omega) (by omega)
  have h1 := Int.mul_ediv_add_emod ((n : ℤ) + b - 1) b
  have h2 := Int.emod_lt_of_pos ((n : ℤ) + b - 1) (show (0 : ℤ) < b by omega)
  zify
  rw [Int.toNat_of_nonneg h0]
  have e : (b : ℤ) * (((n : ℤ) + b - 1) / b) = ((n : ℤ) + b - 1) / b * b := by ring
  omega

theorem chunks_ok {p : TransP} (h : p.Ok) {junk : ℕ → List ℤ} (hj : ∀ w, (junk w).length = nPes p.toProb) {S R : ℕ → Ptr}
    (hs : S (p.comm.at 0) = R (p.comm.at 0) → ∀ w ∈ p.comm, S w = R w) (st : Dist) : XOK p S R st (transposeChunks p junk S R st) := by
  have hp : p.toProb.Ok := ⟨by have := h.nx; show (1 : ℤ) ≤ p.nx; omega, by have := h.ny; show (1 : ℤ) ≤ p.ny; omega,
    by show (0 : ℤ) ≤ p.vn; omega, by have := h.blk; show (1 : ℤ) ≤ p.block; omega, by have := h.tblk; show (1 : ℤ) ≤ p.tblock; omega⟩
  have hle : nPes p.toProb ≤ p.comm.length := by
    have h1 := numBlocksZ_le h.blk.1 h.pes
    have h2 := numBlocksZ_le h.tblk.1 h.tpes
    unfold nPes
    show (max (numBlocksZ p.nx p.block) (numBlocksZ p.ny p.tblock)).toNat ≤ _
    omega
  have hb0 : ∀ r, nPes p.toProb ≤ r → p.b r = 0 ∧ p.bt r = 0 := by
    intro r hr
    have h1 := le_numBlocksZ (n := p.nx) h.blk.1
    have h2 := le_numBlocksZ (n := p.ny) h.tblk.1
    unfold nPes at hr
    have hr' : (max (numBlocksZ p.nx p.block) (numBlocksZ p.ny p.tblock)).toNat ≤ r := hr
    have h3 : (numBlocksZ p.nx p.block).toNat * p.block ≤ r * p.block := Nat.mul_le_mul_right _ (by omega)
    have h4 : (numBlocksZ p.ny p.tblock).toNat * p.tblock ≤ r * p.tblock := Nat.mul_le_mul_right _ (by omega)
    unfold TransP.b TransP.bt
    rw [block_eq, block_eq]
    omega
  have eb : ∀ w : ℕ, blockZ p.toProb.nx p.toProb.block w = (p.b w : ℤ) := fun w => blockZ_nat _ _ _
  have ebt : ∀ w : ℕ, blockZ p.toProb.ny p.toProb.tblock w = (p.bt w : ℤ) := fun w => blockZ_nat _ _ _
  have es : ∀ w q : ℕ, MpiExchange.sbs p.toProb w q = (p.sbs w q : ℤ) := fun w q => by
    unfold MpiExchange.sbs TransP.sbs
    rw [eb, ebt]; push_cast; rfl
  have eso : ∀ w q : ℕ, MpiExchange.sbo p.toProb w q = (p.sbo w q : ℤ) := fun w q => by
    unfold MpiExchange.sbo TransP.sbo
    rw [eb]; push_cast; rfl
  have ero : ∀ w q : ℕ, MpiExchange.rbo p.toProb w q = (p.rbo w q : ℤ) := fun w q => by
    unfold MpiExchange.rbo TransP.rbo
    rw [ebt]; push_cast; rfl
  -- both branches
  have key : ∃ m, (if S (p.comm.at 0) = R (p.comm.at 0) then MpiExchange.transposeChunks p.toProb junk (arrays p.comm R st)
      else (MpiExchange.schedules p.toProb junk).bind fun scheds =>
        exchange2 p.toProb (nPes p.toProb) (fun w => scheds.getD w []) (arrays p.comm S st) (nPes p.toProb) 0 (arrays p.comm R st)) = some m ∧
      (∀ w q : ℕ, w < nPes p.toProb → q < nPes p.toProb → ∀ t, 0 ≤ t → t < MpiExchange.sbs p.toProb q w →
        m w (MpiExchange.rbo p.toProb w q + t) = arrays p.comm S st q (MpiExchange.sbo p.toProb q w + t)) ∧
      (∀ w a : ℤ, (∀ q : ℤ, 0 ≤ q → q < nPes p.toProb → 0 ≤ w → w < nPes p.toProb →
        ¬ (MpiExchange.rbo p.toProb w q ≤ a ∧ a < MpiExchange.rbo p.toProb w q + MpiExchange.sbs p.toProb q w)) → m w a = arrays p.comm R st w a) := by
    split
    · rename_i heq
      obtain ⟨m, m1, m2⟩ := transposeChunks_ok hp junk hj (arrays p.comm R st)
      refine ⟨m, m1, ?_, transposeChunks_frame m1⟩
      intro w q hw hq t h0 ht
      rw [m2 w q hw hq t h0 ht]
      unfold arrays
      rw [hs heq _ (at_mem (by omega))]
    · obtain ⟨σ, k4, k2, k3, _⟩ := schedules_ok hp junk hj
      rw [k4]
      simp only [Option.bind_some]
      obtain ⟨m, m1, m2, m3⟩ := exchange2_ok hp (nPes p.toProb)
        (fun w => ((List.range (nPes p.toProb)).map fun w : Nat => (List.range (nPes p.toProb)).map fun k => meet (nPes p.toProb) w (σ k)).getD w []) σ k2 k3
        (by intro w hw; rw [List.getD_eq_getElem?_getD]; simp [hw]) (arrays p.comm S st) (nPes p.toProb) 0 (arrays p.comm R st) (by omega) (by intro _ _ j hj; omega)
      refine ⟨m, m1, ?_, m3⟩
      intro w q hw hq t ht0 ht
      obtain ⟨s, hs, hms⟩ := meet_surj (nPes p.toProb) w (by omega) (by omega) q hq
      have hsur : ∃ j, j < nPes p.toProb ∧ σ j = s := by
        let f : Fin (nPes p.toProb) → Fin (nPes p.toProb) := fun j => ⟨σ j, k2 j j.2⟩
        have hf : Function.Injective f := fun a b hab => Fin.ext (k3 a b a.2 b.2 (congrArg Fin.val hab))
        obtain ⟨j, hj⟩ := (Finite.injective_iff_surjective.1 hf) ⟨s, hs⟩
        exact ⟨j, j.2, congrArg Fin.val hj⟩
      obtain ⟨j, hj, rfl⟩ := hsur
      have := m2 w hw j hj t ht0
      rw [hms] at this
      exact this ht
  obtain ⟨m, m1, m2, m3⟩ := key
  unfold transposeChunks
  simp only
  rw [m1]
  simp only
  unfold storeArrays
  constructor
  · intro w hw; exact run_other hw _ _
  · intro me hme
    rw [run_at h.nodup hme]
    refine ⟨le_rfl, fun a _ hin => ?_⟩
    dsimp only
    split
    · rename_i hblk
      rw [m3]
      · unfold arrays
        simp only [Int.toNat_natCast]
        congr 1
        exact Ptr.ext hblk.symm (by show (R (p.comm.at me)).off + (a.off - (R (p.comm.at me)).off) = a.off; omega)
      · intro q hq0 hq _ _ hc
        have hqn : q = (q.toNat : ℤ) := by omega
        rw [hqn, ero, es] at hc
        refine hin ⟨p.rbo me q.toNat + (a.off - (R (p.comm.at me)).off - p.rbo me q.toNat).toNat, rbo_lt (q := q.toNat) (by omega), ?_⟩
        refine Ptr.ext hblk ?_
        show a.off = (R (p.comm.at me)).off + _
        push_cast; omega
    · rfl
  · intro me hme q hq t ht
    rw [run_at h.nodup hme]
    dsimp only
    rw [if_pos (by rw [Ptr.add_blk])]
    have hx : (R (p.comm.at me) + ((p.rbo me q + t : ℕ) : ℤ)).off - (R (p.comm.at me)).off = (p.rbo me q : ℤ) + t := by
      show (R (p.comm.at me)).off + ((p.rbo me q + t : ℕ) : ℤ) - (R (p.comm.at me)).off = _
      push_cast; omega
    have hme' : me < nPes p.toProb := by
      by_contra hc
      unfold TransP.sbs at ht
      rw [(hb0 me (by omega)).2] at ht
      simp at ht
    have hq' : q < nPes p.toProb := by
      by_contra hc
      unfold TransP.sbs at ht
      rw [(hb0 q (by omega)).1] at ht
      simp at ht
    rw [hx, ← ero, m2 me q hme' hq' t (by omega) (by rw [es]; omega), eso]
    unfold arrays
    simp only [Int.toNat_natCast]
    push_cast; rfl

end FFTW.Mpi
