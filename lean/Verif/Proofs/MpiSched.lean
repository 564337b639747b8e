import Verif.Model.MpiSched
import Mathlib.Tactic.Ring
import Mathlib.Tactic.Linarith
import Mathlib.Data.Int.ModEq
import Mathlib.Data.Fintype.EquivFin
import Mathlib.Data.List.Nodup
import Mathlib.Data.List.GetD

namespace FFTW.MpiSched

/-- who process `w` meets in round `pe` of the tournament -/
def part (npes : Nat) (w pe : Int) : Int :=
  if npes % 2 = 0 then
    if w = npes - 1 then pe else if pe = w then npes - 1 else (2 * pe - w) % ((npes : Int) - 1)
  else (2 * pe - w) % npes

/-- who process `w` meets at step `s` -/
def meet (npes : Nat) (w : Int) (s : Nat) : Int :=
  if npes % 2 = 0 then if s = 0 then w else part npes w ((s : Int) - 1) else part npes w s

theorem tmod2 (n : Nat) : (n : Int).tmod 2 = 0 ↔ n % 2 = 0 := by
  rw [Int.tmod_eq_emod_of_nonneg (by omega)]; omega

theorem step_core (M h w pe : Int) (hM : M = 2 * h + 1) (hw0 : 0 ≤ w) (hw : w < M) (hp0 : 0 ≤ pe) (hp : pe < M) (hne : pe ≠ w) :
    ((pe - w + M) % M < h + 1 ∧ ¬ (w - pe + M) % M < h + 1 ∧ (pe + (pe - w + M) % M) % M = (2 * pe - w) % M) ∨
    (¬ (pe - w + M) % M < h + 1 ∧ (w - pe + M) % M < h + 1 ∧ (pe - (w - pe + M) % M + M) % M = (2 * pe - w) % M) := by
  rcases lt_or_gt_of_ne hne with h1 | h1
  · -- pe < w
    have e1 : (pe - w + M) % M = pe - w + M := Int.emod_eq_of_lt (by omega) (by omega)
    have e2 : (w - pe + M) % M = w - pe := by rw [Int.add_emod_right, Int.emod_eq_of_lt (by omega) (by omega)]
    rw [e1, e2]
    by_cases hc : pe - w + M < h + 1
    · left
      refine ⟨hc, by omega, ?_⟩
      rw [show pe + (pe - w + M) = 2 * pe - w + M by ring, Int.add_emod_right]
    · right
      refine ⟨hc, by omega, ?_⟩
      rw [show pe - (w - pe) + M = 2 * pe - w + M by ring, Int.add_emod_right]
  · have e1 : (pe - w + M) % M = pe - w := by rw [Int.add_emod_right, Int.emod_eq_of_lt (by omega) (by omega)]
    have e2 : (w - pe + M) % M = w - pe + M := Int.emod_eq_of_lt (by omega) (by omega)
    rw [e1, e2]
    by_cases hc : pe - w < h + 1
    · left
      refine ⟨hc, by omega, ?_⟩
      rw [show pe + (pe - w) = 2 * pe - w by ring]
    · right
      refine ⟨hc, by omega, ?_⟩
      rw [show pe - (w - pe + M) + M = 2 * pe - w by ring]

theorem fillStep_eq (npes : Nat) (w pe : Int) (sched : List Int) (hw0 : 0 ≤ w) (hw : w < npes) (hp0 : 0 ≤ pe)
    (hp : pe < (if npes % 2 = 0 then (npes : Int) else npes + 1) - 1) :
    fillStep npes (if npes % 2 = 0 then (npes : Int) else npes + 1) w pe sched = push npes sched (part npes w pe) := by
  unfold fillStep part
  simp only [tmod2]
  by_cases he : npes % 2 = 0
  · simp only [he, if_true] at hp ⊢
    by_cases h1 : pe = w
    · subst h1
      have : pe ≠ (npes : Int) - 1 := by omega
      rw [if_pos rfl, if_neg this]
      simp only [ne_eq, not_true_eq_false, false_and, if_false]
      unfold push; split <;> simp
    · rw [if_neg h1]
      by_cases h2 : (npes : Int) - 1 = w
      · rw [if_pos h2, if_pos h2.symm]
        have : ¬ (pe ≠ w ∧ w < (npes : Int) - 1) := by omega
        simp only [this, if_false]
        unfold push; split <;> simp
      · rw [if_neg h2, if_neg (fun h => h2 h.symm)]
        have : (pe ≠ w ∧ w < (npes : Int) - 1) := ⟨h1, by omega⟩
        simp only [Option.bind_eq_bind, Option.bind_some]
        rw [if_pos this]
        have hd : (npes : Int).tdiv 2 = ((npes : Int) - 2) / 2 + 1 := by rw [Int.tdiv_eq_ediv_of_nonneg (by omega)]; omega
        have t1 : (pe - w + ((npes : Int) - 1)).tmod ((npes : Int) - 1) = (pe - w + ((npes : Int) - 1)) % ((npes : Int) - 1) :=
          Int.tmod_eq_emod_of_nonneg (by omega)
        have t2 : (w - pe + ((npes : Int) - 1)).tmod ((npes : Int) - 1) = (w - pe + ((npes : Int) - 1)) % ((npes : Int) - 1) :=
          Int.tmod_eq_emod_of_nonneg (by omega)
        rw [t1, t2, hd]
        have b1 := Int.emod_nonneg (pe - w + ((npes : Int) - 1)) (show (npes : Int) - 1 ≠ 0 by omega)
        have b2 := Int.emod_lt_of_pos (w - pe + ((npes : Int) - 1)) (show 0 < (npes : Int) - 1 by omega)
        rw [Int.tmod_eq_emod_of_nonneg (by omega : 0 ≤ pe + (pe - w + ((npes : Int) - 1)) % ((npes : Int) - 1)),
          Int.tmod_eq_emod_of_nonneg (by omega : 0 ≤ pe - (w - pe + ((npes : Int) - 1)) % ((npes : Int) - 1) + ((npes : Int) - 1))]
        rcases step_core ((npes : Int) - 1) (((npes : Int) - 2) / 2) w pe (by omega) hw0 (by omega) hp0 (by omega) h1 with ⟨c1, c2, c3⟩ | ⟨c1, c2, c3⟩
        · simp only [c1, c2, c3, if_true, if_false]
          rw [if_neg h1]; unfold push; split <;> simp
        · simp only [c1, c2, c3, if_true, if_false]
          rw [if_neg h1]
  · simp only [he, if_false] at hp ⊢
    have hn : (npes : Int) + 1 - 1 = npes := by ring
    rw [hn] at hp ⊢
    by_cases h1 : pe = w
    · subst h1
      simp only [ne_eq, not_true_eq_false, false_and, if_false, if_true]
      have : (2 * pe - pe) % (npes : Int) = pe := by
        rw [show 2 * pe - pe = pe by ring]; exact Int.emod_eq_of_lt (by omega) (by omega)
      rw [this]
      unfold push; split <;> simp
    · rw [if_neg h1]
      have : (pe ≠ w ∧ w < (npes : Int)) := ⟨h1, hw⟩
      simp only [Option.bind_eq_bind, Option.bind_some]
      rw [if_pos this]
      have hd : ((npes : Int) + 1).tdiv 2 = ((npes : Int) - 1) / 2 + 1 := by rw [Int.tdiv_eq_ediv_of_nonneg (by omega)]; omega
      have t1 : (pe - w + (npes : Int)).tmod npes = (pe - w + (npes : Int)) % npes :=
        Int.tmod_eq_emod_of_nonneg (by omega)
      have t2 : (w - pe + (npes : Int)).tmod npes = (w - pe + (npes : Int)) % npes :=
        Int.tmod_eq_emod_of_nonneg (by omega)
      rw [t1, t2, hd]
      have b1 := Int.emod_nonneg (pe - w + (npes : Int)) (show (npes : Int) ≠ 0 by omega)
      have b2 := Int.emod_lt_of_pos (w - pe + (npes : Int)) (show 0 < (npes : Int) by omega)
      rw [Int.tmod_eq_emod_of_nonneg (by omega : 0 ≤ pe + (pe - w + (npes : Int)) % npes),
        Int.tmod_eq_emod_of_nonneg (by omega : 0 ≤ pe - (w - pe + (npes : Int)) % npes + npes)]
      rcases step_core (npes : Int) (((npes : Int) - 1) / 2) w pe (by omega) hw0 (by omega) hp0 (by omega) h1 with ⟨c1, c2, c3⟩ | ⟨c1, c2, c3⟩
      · simp only [c1, c2, c3, if_true, if_false]
        unfold push; split <;> simp
      · simp only [c1, c2, c3, if_true, if_false]

theorem fillLoop_eq (npes : Nat) (w : Int) (hw0 : 0 ≤ w) (hw : w < npes) : ∀ (k : Nat) (pe : Nat) (sched : List Int),
    (pe : Int) + k = (if npes % 2 = 0 then (npes : Int) else npes + 1) - 1 → sched.length + k = npes →
    fillLoop npes (if npes % 2 = 0 then (npes : Int) else npes + 1) w k pe sched =
      some (sched ++ (List.range k).map fun j : ℕ => part npes w ((pe : Int) + (j : Int))) := by
  intro k
  induction k with
  | zero => intro pe sched _ _; simp [fillLoop]
  | succ k ih =>
    intro pe sched h1 h2
    rw [fillLoop, fillStep_eq npes w pe sched hw0 hw (by omega) (by push_cast at h1; omega)]
    unfold push
    rw [if_pos (by omega)]
    simp only [Option.bind_eq_bind, Option.bind_some]
    have := ih (pe + 1) (sched ++ [part npes w pe]) (by push_cast at *; omega) (by simp; omega)
    rw [show ((pe : Int) + 1) = ((pe + 1 : Nat) : Int) by push_cast; rfl, this]
    rw [List.range_succ_eq_map, List.map_cons, List.map_map]
    simp only [List.append_assoc, List.singleton_append, Nat.cast_zero, Int.add_zero]
    congr 3
    apply List.map_congr_left
    intro j _
    simp only [Function.comp]
    congr 1
    push_cast; ring

theorem fill1_eq (npes : Nat) (w : Int) (hw0 : 0 ≤ w) (hw : w < npes) :
    fill1 w npes = some ((List.range npes).map (meet npes w)) := by
  unfold fill1
  rw [if_neg (by simp; omega)]
  simp only [tmod2]
  by_cases he : npes % 2 = 0
  · have h := fillLoop_eq npes w hw0 hw (npes - 1) 0 [w] (by simp [he]; omega) (by simp; omega)
    simp only [he, if_true] at h ⊢
    unfold push
    rw [if_pos (by simp; omega)]
    simp only [Option.bind_eq_bind, Option.bind_some, List.nil_append]
    rw [show ((npes : Int) - 1).toNat = npes - 1 by omega]
    simp only [Nat.cast_zero] at h
    rw [h]
    simp only [Option.bind_some]
    rw [if_pos (by simp; omega)]
    congr 1
    obtain ⟨m, rfl⟩ : ∃ m, npes = m + 1 := ⟨npes - 1, by omega⟩
    rw [List.range_succ_eq_map, List.map_cons, List.map_map]
    simp only [meet, he, if_true, Nat.add_sub_cancel, List.singleton_append]
    congr 1
    apply List.map_congr_left
    intro j _
    simp [Function.comp, meet, he]
  · have h := fillLoop_eq npes w hw0 hw npes 0 [] (by simp [he]) (by simp)
    simp only [he, if_false] at h ⊢
    simp only [Option.bind_eq_bind, Option.bind_some]
    rw [show ((npes : Int) + 1 - 1).toNat = npes by omega]
    simp only [Nat.cast_zero] at h
    rw [h]
    simp only [Option.bind_some]
    rw [if_pos (by simp)]
    congr 1
    simp only [List.nil_append]
    apply List.map_congr_left
    intro j _
    simp [meet, he]

/-! ### the tournament -/

theorem odd_dvd {M h d : Int} (hM : M = 2 * h + 1) (hd : M ∣ 2 * d) : M ∣ d := by
  have : d = M * d - h * (2 * d) := by subst hM; ring
  rw [this]
  exact Int.dvd_sub (Int.dvd_mul_right _ _) (Dvd.dvd.mul_left hd _)

theorem dvd_small {M d : Int} (hd : M ∣ d) (h1 : -M < d) (h2 : d < M) : d = 0 :=
  Int.eq_zero_of_abs_lt_dvd hd (by rw [abs_lt]; exact ⟨h1, h2⟩)

theorem emod_bounds (a : Int) {M : Int} (hM : 0 < M) : 0 ≤ a % M ∧ a % M < M :=
  ⟨Int.emod_nonneg _ (by omega), Int.emod_lt_of_pos _ hM⟩

theorem refl_invol (M pe w : Int) (hw0 : 0 ≤ w) (hw : w < M) : (2 * pe - (2 * pe - w) % M) % M = w := by
  rw [Int.sub_emod, Int.emod_emod_of_dvd _ (Int.dvd_refl M), ← Int.sub_emod]
  rw [show 2 * pe - (2 * pe - w) = w by ring]
  exact Int.emod_eq_of_lt hw0 hw

theorem refl_eq (M h a b w : Int) (hM : M = 2 * h + 1) (ha0 : 0 ≤ a) (ha : a < M) (hb0 : 0 ≤ b) (hb : b < M)
    (he : (2 * a - w) % M = (2 * b - w) % M) : a = b := by
  have h1 : M ∣ (2 * a - w) - (2 * b - w) := Int.ModEq.dvd (show 2 * b - w ≡ 2 * a - w [ZMOD M] from he.symm)
  rw [show (2 * a - w) - (2 * b - w) = 2 * (a - b) by ring] at h1
  have := dvd_small (odd_dvd hM h1) (by omega) (by omega)
  omega

theorem refl_self (M h a w : Int) (hM : M = 2 * h + 1) (ha0 : 0 ≤ a) (ha : a < M) (hw0 : 0 ≤ w) (hw : w < M)
    (he : (2 * a - w) % M = w) : a = w := by
  apply refl_eq M h a w w hM ha0 ha hw0 hw
  rw [he, show 2 * w - w = w by ring]
  exact (Int.emod_eq_of_lt hw0 hw).symm

theorem refl_pe (M a w : Int) (ha0 : 0 ≤ a) (ha : a < M) (hw0 : 0 ≤ w) (hw : w < M)
    (he : (2 * a - w) % M = a) : a = w := by
  have h1 := refl_invol M a w hw0 hw
  rw [he, show 2 * a - a = a by ring, Int.emod_eq_of_lt ha0 ha] at h1
  exact h1

theorem meet_range (npes : Nat) (w : Int) (s : Nat) (hw0 : 0 ≤ w) (hw : w < npes) (hs : s < npes) :
    0 ≤ meet npes w s ∧ meet npes w s < npes := by
  unfold meet part
  by_cases he : npes % 2 = 0
  · simp only [he, if_true]
    split
    · exact ⟨hw0, hw⟩
    · split
      · omega
      · split
        · omega
        · have := emod_bounds (2 * ((s : Int) - 1) - w) (M := (npes : Int) - 1) (by omega)
          omega
  · simp only [he, if_false]
    exact emod_bounds _ (by omega)

theorem meet_invol (npes : Nat) (w : Int) (s : Nat) (hw0 : 0 ≤ w) (hw : w < npes) (hs : s < npes) :
    meet npes (meet npes w s) s = w := by
  unfold meet part
  by_cases he : npes % 2 = 0
  · simp only [he, if_true]
    by_cases hs0 : s = 0
    · simp [hs0]
    · simp only [hs0, if_false]
      by_cases h1 : w = (npes : Int) - 1
      · rw [if_pos h1]
        rw [if_neg (by omega), if_pos rfl, h1]
      · rw [if_neg h1]
        by_cases h2 : (s : Int) - 1 = w
        · rw [if_pos h2, if_pos rfl, h2]
        · rw [if_neg h2]
          have hb := emod_bounds (2 * ((s : Int) - 1) - w) (M := (npes : Int) - 1) (by omega)
          rw [if_neg (by omega), if_neg, refl_invol _ _ _ hw0 (by omega)]
          intro hc
          exact h2 (refl_pe ((npes : Int) - 1) ((s : Int) - 1) w (by omega) (by omega) hw0 (by omega) hc.symm)
  · simp only [he, if_false]
    exact refl_invol _ _ _ hw0 hw

theorem meet_inj (npes : Nat) (w : Int) (s t : Nat) (hw0 : 0 ≤ w) (hw : w < npes) (hs : s < npes) (ht : t < npes)
    (h : meet npes w s = meet npes w t) : s = t := by
  unfold meet part at h
  by_cases he : npes % 2 = 0
  · simp only [he, if_true] at h
    have key : ∀ s : Nat, s < npes → s ≠ 0 → (if w = (npes : Int) - 1 then (s : Int) - 1 else if (s : Int) - 1 = w then (npes : Int) - 1 else
        (2 * ((s : Int) - 1) - w) % ((npes : Int) - 1)) ≠ w := by
      intro s hs hs0 hc
      by_cases h1 : w = (npes : Int) - 1
      · rw [if_pos h1] at hc; omega
      · rw [if_neg h1] at hc
        by_cases h2 : (s : Int) - 1 = w
        · rw [if_pos h2] at hc; omega
        · rw [if_neg h2] at hc
          exact h2 (refl_self ((npes : Int) - 1) (((npes : Int) - 2) / 2) _ w (by omega) (by omega) (by omega) hw0 (by omega) hc)
    by_cases hs0 : s = 0
    · by_cases ht0 : t = 0
      · omega
      · rw [if_pos hs0, if_neg ht0] at h
        exact absurd h.symm (key t ht ht0)
    · by_cases ht0 : t = 0
      · rw [if_pos ht0, if_neg hs0] at h
        exact absurd h (key s hs hs0)
      · rw [if_neg hs0, if_neg ht0] at h
        by_cases h1 : w = (npes : Int) - 1
        · rw [if_pos h1, if_pos h1] at h; omega
        · rw [if_neg h1, if_neg h1] at h
          have hbs := emod_bounds (2 * ((s : Int) - 1) - w) (M := (npes : Int) - 1) (by omega)
          have hbt := emod_bounds (2 * ((t : Int) - 1) - w) (M := (npes : Int) - 1) (by omega)
          by_cases h2 : (s : Int) - 1 = w
          · by_cases h3 : (t : Int) - 1 = w
            · omega
            · rw [if_pos h2, if_neg h3] at h; omega
          · by_cases h3 : (t : Int) - 1 = w
            · rw [if_neg h2, if_pos h3] at h; omega
            · rw [if_neg h2, if_neg h3] at h
              have := refl_eq ((npes : Int) - 1) (((npes : Int) - 2) / 2) _ _ w (by omega) (by omega) (by omega) (by omega) (by omega) h
              omega
  · simp only [he, if_false] at h
    have := refl_eq (npes : Int) (((npes : Int) - 1) / 2) _ _ w (by omega) (by omega) (by omega) (by omega) (by omega) h
    omega

theorem meet_surj (npes : Nat) (w : Int) (hw0 : 0 ≤ w) (hw : w < npes) (k : Nat) (hk : k < npes) :
    ∃ s, s < npes ∧ meet npes w s = k := by
  let f : Fin npes → Fin npes := fun s => ⟨(meet npes w s).toNat, by have := meet_range npes w s hw0 hw s.2; omega⟩
  have hf : Function.Injective f := by
    intro a b hab
    have h1 := congrArg Fin.val hab
    have h2 := meet_range npes w a hw0 hw a.2
    have h3 := meet_range npes w b hw0 hw b.2
    exact Fin.ext (meet_inj npes w a b hw0 hw a.2 b.2 (by simp only [f] at h1; omega))
  obtain ⟨s, hs⟩ := (Finite.injective_iff_surjective.1 hf) ⟨k, hk⟩
  have h1 := congrArg Fin.val hs
  have h2 := meet_range npes w s hw0 hw s.2
  exact ⟨s, s.2, by simp only [f] at h1; omega⟩

/-! ### sorting -/

/-- target position of the pair `(s, v)` -/
def tgt (asc : Bool) (npes s : Int) : Int := (if asc then npes + s else 2 * npes - 1 - s) - npes

theorem scatter_spec (asc : Bool) (npes : Nat) : ∀ (l : List (Int × Int)) (up : List Int), up.length = npes →
    (∀ p ∈ l, 0 ≤ p.1 ∧ p.1 < npes) → (l.map Prod.fst).Nodup →
    ∃ up', scatter asc npes l up = some up' ∧ up'.length = npes ∧ (∀ p ∈ l, up'[(tgt asc npes p.1).toNat]? = some p.2) ∧
      (∀ k : Nat, (∀ p ∈ l, (tgt asc npes p.1).toNat ≠ k) → up'[k]? = up[k]?) := by
  intro l
  induction l with
  | nil => intro up h _ _; exact ⟨up, rfl, h, by simp, by simp⟩
  | cons p l ih =>
    intro up hl hr hnd
    obtain ⟨s, v⟩ := p
    have hs := hr (s, v) (by simp)
    have ht : 0 ≤ tgt asc npes s ∧ tgt asc npes s < npes := by
      unfold tgt; cases asc <;> simp at hs ⊢ <;> omega
    have hst : store up (tgt asc npes s) v = some (up.set (tgt asc npes s).toNat v) := by
      unfold store; rw [if_pos (by omega)]
    rw [List.map_cons, List.nodup_cons] at hnd
    obtain ⟨up', h1, h2, h3, h4⟩ := ih (up.set (tgt asc npes s).toNat v) (by simpa using hl) (fun p hp => hr p (by simp [hp])) hnd.2
    have hdiff : ∀ p ∈ l, (tgt asc npes p.1).toNat ≠ (tgt asc npes s).toNat := by
      intro p hp hc
      have hp' := hr p (by simp [hp])
      have : p.1 = s := by
        unfold tgt at hc ht; cases asc <;> simp at hc hs hp' ht <;> omega
      exact hnd.1 (List.mem_map.2 ⟨p, hp, this⟩)
    refine ⟨up', ?_, h2, ?_, ?_⟩
    · rw [scatter]
      have : store up ((if asc = true then (npes : Int) + s else 2 * npes - 1 - s) - npes) v = _ := hst
      rw [this]; exact h1
    · intro p hp
      rcases List.mem_cons.1 hp with rfl | hp
      · rw [h4 _ hdiff]
        rw [List.getElem?_set_self (by omega)]
      · exact h3 p hp
    · intro k hk
      rw [h4 k (fun p hp => hk p (by simp [hp]))]
      rw [List.getElem?_set_ne (hk (s, v) (by simp))]

theorem sort1_spec (npes : Nat) (w sp : Int) (asc : Bool) (junk : List Int) (hj : junk.length = npes)
    (hs0 : 0 ≤ sp) (hs : sp < npes) :
    ∃ up, sort1 ((List.range npes).map (meet npes w)) npes sp asc junk = some up ∧ up.length = npes ∧
      ∀ i, i < npes → up[(tgt asc npes (meet npes sp i)).toNat]? = some (meet npes w i) := by
  unfold sort1
  rw [fill1_eq npes sp hs0 hs]
  simp only [Option.bind_eq_bind, Option.bind_some]
  have hz : ((List.range npes).map (meet npes sp)).zip ((List.range npes).map (meet npes w)) =
      (List.range npes).map fun i => (meet npes sp i, meet npes w i) := by
    rw [List.zip_map']
  rw [hz]
  obtain ⟨up, h1, h2, h3, _⟩ := scatter_spec asc npes ((List.range npes).map fun i => (meet npes sp i, meet npes w i)) junk hj
    (by
      intro p hp
      obtain ⟨i, hi, rfl⟩ := List.mem_map.1 hp
      exact meet_range npes sp i hs0 hs (List.mem_range.1 hi))
    (by
      rw [List.map_map]
      apply List.Nodup.map_on _ List.nodup_range
      intro a ha b hb hab
      exact meet_inj npes sp a b hs0 hs (List.mem_range.1 ha) (List.mem_range.1 hb) hab)
  exact ⟨up, h1, h2, fun i hi => h3 _ (List.mem_map.2 ⟨i, List.mem_range.2 hi, rfl⟩)⟩

/-- the step at which `sort_pe` meets its `k`-th partner in sorted order, described by the schedule of every process -/
theorem mkSched_sorted (npes : Nat) (sp : Int) (asc : Bool) (hs0 : 0 ≤ sp) (hs : sp < npes) :
    ∃ σ : Nat → Nat, (∀ k, k < npes → σ k < npes ∧ meet npes sp (σ k) = if asc then (k : Int) else npes - 1 - k) ∧
      (∀ k l, k < npes → l < npes → σ k = σ l → k = l) ∧
      ∀ (w : Int) (junk : List Int), 0 ≤ w → w < npes → junk.length = npes →
        mkSched w npes sp asc junk = some ((List.range npes).map fun k => meet npes w (σ k)) := by
  have hex : ∀ k : Nat, ∃ s, k < npes → s < npes ∧ meet npes sp s = if asc then (k : Int) else npes - 1 - k := by
    intro k
    by_cases hk : k < npes
    · obtain ⟨s, h1, h2⟩ := meet_surj npes sp hs0 hs (if asc then k else npes - 1 - k) (by split <;> omega)
      refine ⟨s, fun _ => ⟨h1, ?_⟩⟩
      rw [h2]; split <;> omega
    · exact ⟨0, fun h => absurd h hk⟩
  choose σ hσ using hex
  refine ⟨σ, hσ, ?_, ?_⟩
  · intro k l hk hl hkl
    have h1 := (hσ k hk).2
    have h2 := (hσ l hl).2
    rw [hkl] at h1
    rw [h1] at h2
    cases asc <;> simp at h2 <;> omega
  · intro w junk hw0 hw hj
    unfold mkSched
    rw [fill1_eq npes w hw0 hw]
    simp only [Option.bind_eq_bind, Option.bind_some]
    rw [if_pos hs0]
    obtain ⟨up, h1, h2, h3⟩ := sort1_spec npes w sp asc junk hj hs0 hs
    rw [h1]
    congr 1
    apply List.ext_getElem?
    intro k
    by_cases hk : k < npes
    · have h4 := h3 (σ k) (hσ k hk).1
      rw [(hσ k hk).2] at h4
      have : (tgt asc npes (if asc then (k : Int) else npes - 1 - k)).toNat = k := by
        unfold tgt; cases asc <;> simp <;> omega
      rw [this] at h4
      rw [h4]; simp [hk]
    · rw [List.getElem?_eq_none (by omega), List.getElem?_eq_none (by simp; omega)]

end FFTW.MpiSched
