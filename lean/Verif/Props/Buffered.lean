import Verif.Proofs.Buffered

/-!
# C40: batch buffering
-/

namespace FFTW.Props
open Tensor DftS

/-- C40: for every problem, flags, heuristics, size of a real number and choice of the maximum number of buffers: the buffered plan
(transform a group of rows into a buffer, copy the buffer out, until fewer rows than buffers remain; then the rest directly) is correct,
in place or not, provided its child plans are -/
theorem C40_buffered_solver [CLib] (szR which : ℕ) (taste : Taste) : (buffered szR which taste).Sound := buffered_sound szR which taste

/-- C40: there is at least one buffer and there are no more buffers than rows; at most `maxnbuf` (256 by default) and as many as fit in
256 K bytes (or 1) -/
theorem C40_nbuf (szR n vl maxnbuf : ℕ) (hv : 1 ≤ vl) :
    1 ≤ nbuf szR n vl maxnbuf ∧ nbuf szR n vl maxnbuf ≤ vl ∧ nbuf szR n vl maxnbuf ≤ (if maxnbuf = 0 then 256 else maxnbuf) ∧
      nbuf szR n vl maxnbuf ≤ max 1 (256 * 1024 / szR / n) := by
  refine ⟨(nbuf_bounds szR n vl maxnbuf hv).1, (nbuf_bounds szR n vl maxnbuf hv).2, ?_, ?_⟩ <;>
  · unfold nbuf maxbufsz
    dsimp only
    set b := min (if maxnbuf = 0 then 256 else maxnbuf) (min vl (max 1 (256 * 1024 / szR / n))) with hb
    cases h : nbufSearch vl (max 1 (b / 4)) b with
    | none => simp only [Option.getD_none]; omega
    | some k => have := nbufSearch_spec h; simp only [Option.getD_some]; omega

/-- C40: the rows handled by the rounds and by the last plan are exactly the rows of the batch, each once: row `j` belongs to one place
`(round, row in the buffer)`, or to the rest -/
theorem C40_every_row_once (nb vl : ℕ) (hnb : 0 < nb) (j : ℕ) (hj : j < vl) :
    (∃! p : ℕ × ℕ, p.1 < vl / nb ∧ p.2 < nb ∧ j = p.1 * nb + p.2) ∧ ¬ (vl / nb * nb ≤ j) ∨
    (vl / nb * nb ≤ j ∧ j - vl / nb * nb < vl % nb) ∧ ¬ ∃ p : ℕ × ℕ, p.1 < vl / nb ∧ p.2 < nb ∧ j = p.1 * nb + p.2 := by
  have hq : vl / nb * nb + vl % nb = vl := Nat.div_add_mod' vl nb
  have hlt : ∀ a b : ℕ, a < vl / nb → b < nb → a * nb + b < vl / nb * nb := by
    intro a b ha hb
    have := Nat.mul_le_mul_right nb (show a + 1 ≤ vl / nb by omega)
    rw [Nat.succ_mul] at this; omega
  by_cases h : vl / nb * nb ≤ j
  · refine Or.inr ⟨⟨h, by omega⟩, ?_⟩
    rintro ⟨⟨a, b⟩, ha, hb, rfl⟩
    have := hlt a b ha hb
    simp only at h; omega
  · refine Or.inl ⟨⟨(j / nb, j % nb), ⟨?_, Nat.mod_lt _ hnb, (Nat.div_add_mod' j nb).symm⟩, ?_⟩, h⟩
    · exact Nat.div_lt_of_lt_mul (by rw [mul_comm]; omega)
    · rintro ⟨a, b⟩ ⟨ha, hb, rfl⟩
      simp only at *
      rw [mul_comm, Nat.mul_add_div hnb, Nat.div_eq_of_lt hb, Nat.mul_add_mod, Nat.mod_eq_of_lt hb]; simp

/-- the loop of the plan runs exactly that many rounds, in order -/
theorem C40_rounds (nb vl : ℕ) (hnb : 0 < nb) (body : ℕ → State → State) (st : State) :
    bufLoop nb vl body nb 0 st = (forN (vl / nb) body st, vl / nb) := by
  rw [bufLoop_eq hnb body nb 0 st (by omega) (by omega)]; simp

/-- C40: real and imaginary parts (`c`) of element `k` of row `v` of the buffer lie within the `2 * nbuf * bufdist` numbers allocated, and
distinct elements at distinct places -/
theorem C40_buffer_holds_rows (n nb vl : ℕ) (v k c : ℕ) (hv : v < nb) (hk : k < n) (hc : c < 2) :
    v * (bufdist n vl * 2) + 2 * k + c < nb * bufdist n vl * 2 ∧
    ∀ v' k' c', v' < nb → k' < n → c' < 2 → v' * (bufdist n vl * 2) + 2 * k' + c' = v * (bufdist n vl * 2) + 2 * k + c → v' = v ∧ k' = k ∧ c' = c := by
  have hb := bufdist_ge n vl
  generalize bufdist n vl = b at *
  constructor
  · have := Nat.mul_le_mul_right (b * 2) (show v + 1 ≤ nb by omega)
    rw [Nat.succ_mul] at this
    rw [mul_assoc]; omega
  · intro v' k' c' _ hk' hc' he
    have key : ∀ w j d, j < n → d < 2 → (w * (b * 2) + 2 * j + d) / (b * 2) = w := by
      intro w j d hj hd
      rw [mul_comm w, add_assoc, Nat.mul_add_div (by omega), Nat.div_eq_of_lt (by omega), add_zero]
    have h1 : v' = v := by rw [← key v' k' c' hk' hc', he, key v k c hk hc]
    subst h1
    omega

/-- it does make plans: 12 transforms of size 1000, in place -/
example [CLib] (fl : Flags) (c : Plan) : ∃ m f k, (buffered 8 0 fun _ _ => true).mkplan
    (.dft ⟨[⟨1000, 2, 2⟩], some [⟨12, 2000, 2000⟩], ⟨0, 0⟩, ⟨0, 1⟩, ⟨0, 0⟩, ⟨0, 1⟩⟩) fl = .plan m f k ∧
    ∃ m f k', k (some c) = .plan m f k' ∧ ∃ m f k'', k' (some c) = .plan m f k'' ∧ ∃ f, k'' (some c) = .ret (some (.dft f)) :=
  ⟨_, _, _, rfl, _, _, _, rfl, _, _, _, rfl, _, rfl⟩

example : nbuf 8 1000 12 8 = 6 ∧ bufdist 1000 12 = 1006 ∧ nbuf 8 10 7 8 = 7 ∧ nbuf 8 10 17 8 = 8 := by decide

end FFTW.Props
