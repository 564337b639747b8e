import Verif.Proofs.MpiExchange

/-!
# C49: the in-place MPI pairwise exchange delivers every block
-/

namespace FFTW.Props
open FFTW.MpiExchange

/-- C49: for every matrix size, block sizes and tuple length, the in-place pairwise exchange (schedules as planned,
including the sorted ones) runs to completion - no deadlock, no message longer than its receive count, no overrun
of the send buffer, the planner's assertion "only one process should need sorting" holds - and no block is
overwritten before it is sent: if process `q` holds rows `x ∈ [q·block, q·block + b_q)` of the matrix `A` as an
`ny × b_q × vn` array, then afterwards process `w` holds, for each `q`, the `bt_w × b_q × vn` piece of `A` with
columns `y ∈ [w·tblock, w·tblock + bt_w)` at offset `q·block·bt_w·vn`. -/
theorem C49_inplace_exchange {α : Type} (p : Prob) (hnx : 1 ≤ p.nx) (hny : 1 ≤ p.ny) (hvn : 0 ≤ p.vn) (hb : 1 ≤ p.block) (ht : 1 ≤ p.tblock)
    (junk : Nat → List Int) (hj : ∀ w, (junk w).length = nPes p)
    (A : Int → Int → Int → α) (mem : Int → Int → α)
    (hA : ∀ q : Nat, q < nPes p → ∀ y xl v, 0 ≤ y → y < p.ny → 0 ≤ xl → xl < blockZ p.nx p.block q → 0 ≤ v → v < p.vn →
      mem q ((y * blockZ p.nx p.block q + xl) * p.vn + v) = A (q * p.block + xl) y v) :
    ∃ mem', transposeChunks p junk mem = some mem' ∧
      ∀ w q : Nat, w < nPes p → q < nPes p → ∀ yl xl v, 0 ≤ yl → yl < blockZ p.ny p.tblock w → 0 ≤ xl → xl < blockZ p.nx p.block q → 0 ≤ v → v < p.vn →
        mem' w (q * p.block * blockZ p.ny p.tblock w * p.vn + ((yl * blockZ p.nx p.block q + xl) * p.vn + v)) =
          A (q * p.block + xl) (w * p.tblock + yl) v := by
  have hp : p.Ok := ⟨hnx, hny, hvn, hb, ht⟩
  obtain ⟨mem', h1, h2⟩ := transposeChunks_ok hp junk hj mem
  refine ⟨mem', h1, ?_⟩
  intro w q hw hq yl xl v hy0 hy hx0 hx hv0 hv
  have ht0 : 0 ≤ (yl * blockZ p.nx p.block q + xl) * p.vn + v := by
    have := Int.mul_nonneg (Int.add_nonneg (Int.mul_nonneg hy0 (show 0 ≤ blockZ p.nx p.block q by omega)) hx0) hvn
    omega
  have ht1 : (yl * blockZ p.nx p.block q + xl) * p.vn + v < sbs p q w := by
    unfold sbs
    have a1 : yl * blockZ p.nx p.block q + blockZ p.nx p.block q ≤ blockZ p.ny p.tblock w * blockZ p.nx p.block q :=
      mul_succ_le (by omega) hy
    have a2 : (yl * blockZ p.nx p.block q + xl) * p.vn + p.vn ≤ (blockZ p.ny p.tblock w * blockZ p.nx p.block q) * p.vn :=
      mul_succ_le hvn (by omega)
    have a3 : blockZ p.nx p.block q * blockZ p.ny p.tblock w * p.vn = (blockZ p.ny p.tblock w * blockZ p.nx p.block q) * p.vn := by ring
    omega
  have h3 := h2 w q hw hq _ ht0 ht1
  have e1 : rbo p w q = q * p.block * blockZ p.ny p.tblock w * p.vn := by unfold rbo; ring
  rw [e1] at h3
  rw [h3]
  have e2 : sbo p q w + ((yl * blockZ p.nx p.block q + xl) * p.vn + v) = ((w * p.tblock + yl) * blockZ p.nx p.block q + xl) * p.vn + v := by
    unfold sbo; ring
  rw [e2]
  apply hA q hq _ _ _ (by positivity) _ hx0 hx hv0 hv
  rw [blockZ_eq _ _ _ ht] at hy
  omega

/-- `k` steps of an asynchronous execution -/
def AsyncRun {α : Type} (p : Prob) (scheds : List (List Int)) : Nat → Conf α → Conf α → Prop
  | 0, c, c' => c = c'
  | k + 1, c, c' => ∃ d, AsyncRun p scheds k c d ∧ AsyncStep p scheds d c'

/-- C49, every interleaving: let the processes run the planned schedules asynchronously, in any order and at any relative
speed, each blocking in `MPI_Sendrecv` until its partner addresses it.  Every such execution has at most `n_pes²` steps;
it never gets stuck before every process has finished its loop (no deadlock); and when it stops, each process
holds every piece addressed to it, as in `C49_inplace_exchange`. -/
theorem C49_every_interleaving {α : Type} (p : Prob) (hnx : 1 ≤ p.nx) (hny : 1 ≤ p.ny) (hvn : 0 ≤ p.vn) (hb : 1 ≤ p.block) (ht : 1 ≤ p.tblock)
    (junk : Nat → List Int) (hj : ∀ w, (junk w).length = nPes p)
    (A : Int → Int → Int → α) (mem : Int → Int → α)
    (hA : ∀ q : Nat, q < nPes p → ∀ y xl v, 0 ≤ y → y < p.ny → 0 ≤ xl → xl < blockZ p.nx p.block q → 0 ≤ v → v < p.vn →
      mem q ((y * blockZ p.nx p.block q + xl) * p.vn + v) = A (q * p.block + xl) y v) :
    ∃ scheds, schedules p junk = some scheds ∧ ∀ k c, AsyncRun p scheds k ⟨fun _ => 0, mem⟩ c →
      k ≤ nPes p * nPes p ∧
      ((∃ c', AsyncStep p scheds c c') ∨
       ((∀ w, w < nPes p → c.pc w = nPes p) ∧
        ∀ w q : Nat, w < nPes p → q < nPes p → ∀ yl xl v, 0 ≤ yl → yl < blockZ p.ny p.tblock w → 0 ≤ xl → xl < blockZ p.nx p.block q → 0 ≤ v → v < p.vn →
          c.mem w (q * p.block * blockZ p.ny p.tblock w * p.vn + ((yl * blockZ p.nx p.block q + xl) * p.vn + v)) =
            A (q * p.block + xl) (w * p.tblock + yl) v)) := by
  obtain ⟨scheds, mem', g1, g2, g3⟩ := async_main ⟨hnx, hny, hvn, hb, ht⟩ junk hj mem
  obtain ⟨mem'', e1, e2⟩ := C49_inplace_exchange p hnx hny hvn hb ht junk hj A mem hA
  rw [g2] at e1
  obtain rfl := Option.some.inj e1
  refine ⟨scheds, g1, ?_⟩
  intro k c hrun
  have hreach : Relation.ReflTransGen (AsyncStep p scheds) ⟨fun _ => 0, mem⟩ c ∧ k ≤ ∑ w ∈ Finset.range (nPes p), c.pc w := by
    induction k generalizing c with
    | zero => rw [AsyncRun] at hrun; subst hrun; exact ⟨.refl, by omega⟩
    | succ k ih =>
      obtain ⟨d, hd, hs⟩ := hrun
      obtain ⟨i1, i2⟩ := ih d hd
      exact ⟨i1.tail hs, by have := async_measure hs; omega⟩
  obtain ⟨b1, b2⟩ := g3 c hreach.1
  constructor
  · have : ∑ w ∈ Finset.range (nPes p), c.pc w ≤ ∑ w ∈ Finset.range (nPes p), nPes p :=
      Finset.sum_le_sum fun w hw => b1 w (Finset.mem_range.1 hw)
    simp only [Finset.sum_const, Finset.card_range, Nat.nsmul_eq_mul, Nat.cast_id] at this
    omega
  · by_cases hst : ∃ c', AsyncStep p scheds c c'
    · exact Or.inl hst
    · right
      have hfin := b2 hst
      refine ⟨fun w hw => (hfin w hw).1, ?_⟩
      intro w q hw hq yl xl v h1 h2 h3 h4 h5 h6
      rw [(hfin w hw).2]
      exact e2 w q hw hq yl xl v h1 h2 h3 h4 h5 h6

/-- the block function used here is `XM(block)` of the other MPI model when nothing overflows -/
example : blockZ 10 4 2 = 2 := by decide
/-- a case with unequal blocks where sorting is needed: 5 × 7 over blocks 3 and 3: process 1 needs sorting -/
example : sortSearch ⟨5, 7, 1, 3, 3⟩ (List.range 3) (-1, true) = some (1, false) := by decide
example : nPes ⟨5, 7, 1, 3, 3⟩ = 3 := by decide

end FFTW.Props
