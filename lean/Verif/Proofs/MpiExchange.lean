import Mathlib.Logic.Relation
import Mathlib.Algebra.Order.BigOperators.Group.Finset
import Mathlib.Data.Finset.Max
import Mathlib.Tactic.Push
import Verif.Model.MpiExchange
import Verif.Proofs.MpiSched

namespace FFTW.MpiExchange
open FFTW.MpiSched

/-- legal problem -/
structure Prob.Ok (p : Prob) : Prop where
  nx : 1 ≤ p.nx
  ny : 1 ≤ p.ny
  vn : 0 ≤ p.vn
  b : 1 ≤ p.block
  t : 1 ≤ p.tblock

theorem blockZ_eq (n b w : Int) (hb : 1 ≤ b) : blockZ n b w = max 0 (min b (n - w * b)) := by
  unfold blockZ; simp only []
  split
  · omega
  · split <;> omega

theorem blockZ_bounds (n b w : Int) (hb : 1 ≤ b) : 0 ≤ blockZ n b w ∧ blockZ n b w ≤ b := by
  rw [blockZ_eq n b w hb]; omega

theorem blockZ_full (n b i j : Int) (hb : 1 ≤ b) (hij : i < j) (hj : 0 < blockZ n b j) : blockZ n b i = b := by
  rw [blockZ_eq n b _ hb] at *
  have : (i + 1) * b ≤ j * b := Int.mul_le_mul_of_nonneg_right (by omega) (by omega)
  have e : (i + 1) * b = i * b + b := by ring
  omega

theorem blockZ_anti (n b i j : Int) (hb : 1 ≤ b) (hij : i ≤ j) : blockZ n b j ≤ blockZ n b i := by
  rw [blockZ_eq n b _ hb, blockZ_eq n b _ hb]
  have : i * b ≤ j * b := Int.mul_le_mul_of_nonneg_right (by omega) (by omega)
  omega

/-- process `w` needs a sorted schedule -/
def Needs (p : Prob) (w : Int) : Prop :=
  blockZ p.nx p.block w * blockZ p.ny p.tblock w > 0 ∧ blockZ p.nx p.block w * p.tblock ≠ p.block * blockZ p.ny p.tblock w

theorem needs_unique {p : Prob} (hp : p.Ok) {i j : Int} (hij : i < j) (hi : Needs p i) (hj : Needs p j) : False := by
  have b1 := blockZ_bounds p.nx p.block j hp.b
  have b2 := blockZ_bounds p.ny p.tblock j hp.t
  have h1 : 0 < blockZ p.nx p.block j := by
    rcases Int.lt_or_eq_of_le b1.1 with h | h
    · exact h
    · have := hj.1; rw [← h] at this; simp at this
  have h2 : 0 < blockZ p.ny p.tblock j := by
    rcases Int.lt_or_eq_of_le b2.1 with h | h
    · exact h
    · have := hj.1; rw [← h] at this; simp at this
  apply hi.2
  rw [blockZ_full _ _ i j hp.b hij h1, blockZ_full _ _ i j hp.t hij h2]

theorem sortSearch_none (p : Prob) : ∀ (l : List Nat) (st : Int × Bool), (∀ pe ∈ l, ¬ Needs p (pe : Nat)) → sortSearch p l st = some st := by
  intro l
  induction l with
  | nil => intro st _; rfl
  | cons a l ih =>
    intro st h
    rw [sortSearch]
    have := h a (by simp)
    unfold Needs at this
    rw [if_neg this]
    exact ih st (fun pe hpe => h pe (by simp [hpe]))

theorem sortSearch_some {p : Prob} (hp : p.Ok) : ∀ (l : List Nat), l.Pairwise (· < ·) →
    ((∀ pe ∈ l, ¬ Needs p (pe : Nat)) ∧ sortSearch p l (-1, true) = some (-1, true)) ∨
    ∃ pe ∈ l, Needs p (pe : Nat) ∧ (∀ q ∈ l, Needs p (q : Nat) → q = pe) ∧
      sortSearch p l (-1, true) = some ((pe : Int), decide (blockZ p.nx p.block pe * p.tblock > p.block * blockZ p.ny p.tblock pe)) := by
  intro l
  induction l with
  | nil => intro _; left; exact ⟨by simp, rfl⟩
  | cons a l ih =>
    intro hpw
    rw [List.pairwise_cons] at hpw
    by_cases ha : Needs p (a : Nat)
    · right
      have hrest : ∀ pe ∈ l, ¬ Needs p (pe : Nat) := fun pe hpe hn =>
        needs_unique hp (by exact_mod_cast hpw.1 pe hpe) ha hn
      refine ⟨a, by simp, ha, ?_, ?_⟩
      · intro q hq hn
        rcases List.mem_cons.1 hq with rfl | hq
        · rfl
        · exact absurd hn (hrest q hq)
      · rw [sortSearch]
        simp only []
        have ha' := ha
        unfold Needs at ha'
        rw [if_pos ha']
        simp only [if_true]
        exact sortSearch_none p l _ hrest
    · have hstep : sortSearch p (a :: l) (-1, true) = sortSearch p l (-1, true) := by
        rw [sortSearch]
        simp only []
        have ha' := ha
        unfold Needs at ha'
        rw [if_neg ha']
      rw [hstep]
      rcases ih hpw.2 with ⟨h1, h2⟩ | ⟨pe, h1, h2, h3, h4⟩
      · left
        refine ⟨?_, h2⟩
        intro pe hpe
        rcases List.mem_cons.1 hpe with rfl | hpe
        · exact ha
        · exact h1 pe hpe
      · right
        refine ⟨pe, by simp [h1], h2, ?_, h4⟩
        intro q hq hn
        rcases List.mem_cons.1 hq with rfl | hq
        · exact absurd hn ha
        · exact h3 q hq hn

/-- receive and send strides of process `w` -/
def Kr (p : Prob) (w : Int) : Int := p.block * blockZ p.ny p.tblock w * p.vn
/-- send stride -/
def Ks (p : Prob) (w : Int) : Int := blockZ p.nx p.block w * p.tblock * p.vn

theorem rbo_eq (p : Prob) (w q : Int) : rbo p w q = q * Kr p w := by unfold rbo Kr; ring
theorem sbo_eq (p : Prob) (w q : Int) : sbo p w q = q * Ks p w := by unfold sbo Ks; ring
theorem rbs_eq_sbs (p : Prob) (w q : Int) : rbs p w q = sbs p q w := by unfold rbs sbs; ring

theorem sbs_nonneg {p : Prob} (hp : p.Ok) (w q : Int) : 0 ≤ sbs p w q :=
  Int.mul_nonneg (Int.mul_nonneg (blockZ_bounds _ _ _ hp.b).1 (blockZ_bounds _ _ _ hp.t).1) hp.vn

theorem sbs_le_Ks {p : Prob} (hp : p.Ok) (w q : Int) : sbs p w q ≤ Ks p w := by
  unfold sbs Ks
  apply Int.mul_le_mul_of_nonneg_right _ hp.vn
  exact Int.mul_le_mul_of_nonneg_left (blockZ_bounds _ _ _ hp.t).2 (blockZ_bounds _ _ _ hp.b).1

theorem rbs_le_Kr {p : Prob} (hp : p.Ok) (w q : Int) : sbs p q w ≤ Kr p w := by
  unfold sbs Kr
  apply Int.mul_le_mul_of_nonneg_right _ hp.vn
  exact Int.mul_le_mul_of_nonneg_right (blockZ_bounds _ _ _ hp.b).2 (blockZ_bounds _ _ _ hp.t).1

theorem Kr_nonneg {p : Prob} (hp : p.Ok) (w : Int) : 0 ≤ Kr p w := le_trans (sbs_nonneg hp 0 w) (rbs_le_Kr hp w 0)
theorem Ks_nonneg {p : Prob} (hp : p.Ok) (w : Int) : 0 ≤ Ks p w := le_trans (sbs_nonneg hp w 0) (sbs_le_Ks hp w 0)

theorem mul_succ_le {K a b : Int} (hK : 0 ≤ K) (hab : a < b) : a * K + K ≤ b * K := by
  have : (a + 1) * K ≤ b * K := Int.mul_le_mul_of_nonneg_right (by omega) hK
  have e : (a + 1) * K = a * K + K := by ring
  omega

/-- what a process writes at one step does not overlap what it sends at a later one -/
theorem no_overlap {p : Prob} (hp : p.Ok) (w q q' : Int) (hq0 : 0 ≤ q) (hq0' : 0 ≤ q') (hne : q ≠ q')
    (hord : Needs p w → if blockZ p.nx p.block w * p.tblock > p.block * blockZ p.ny p.tblock w then q < q' else q' < q)
    (a : Int) (h1 : rbo p w q ≤ a) (h2 : a < rbo p w q + sbs p q w) (h3 : sbo p w q' ≤ a) (h4 : a < sbo p w q' + sbs p w q') : False := by
  rw [rbo_eq] at h1 h2
  rw [sbo_eq] at h3 h4
  have k1 := sbs_le_Ks hp w q'
  have k2 := rbs_le_Kr hp w q
  have k3 := Kr_nonneg hp w
  have k4 := Ks_nonneg hp w
  by_cases hK : Kr p w = Ks p w
  · rw [hK] at h1 h2 k2 k3
    rcases lt_or_gt_of_ne hne with h | h
    · have := mul_succ_le k4 h; omega
    · have := mul_succ_le k4 h; omega
  · have bb := blockZ_bounds p.nx p.block w hp.b
    have bt := blockZ_bounds p.ny p.tblock w hp.t
    by_cases hz : blockZ p.nx p.block w = 0
    · have : sbs p w q' = 0 := by unfold sbs; rw [hz]; ring
      omega
    · by_cases hz' : blockZ p.ny p.tblock w = 0
      · have : sbs p q w = 0 := by unfold sbs; rw [hz']; ring
        omega
      · have hn : Needs p w := by
          refine ⟨Int.mul_pos (by omega) (by omega), ?_⟩
          intro hc
          apply hK
          unfold Kr Ks; rw [hc]
        have ho := hord hn
        split at ho
        · rename_i hgt
          have hKK : Kr p w ≤ Ks p w := by unfold Kr Ks; exact Int.mul_le_mul_of_nonneg_right hgt.le hp.vn
          have := mul_succ_le k4 ho
          have h5 : q * Kr p w ≤ q * Ks p w := Int.mul_le_mul_of_nonneg_left hKK hq0
          omega
        · rename_i hgt
          have hKK : Ks p w ≤ Kr p w := by unfold Kr Ks; exact Int.mul_le_mul_of_nonneg_right (by omega) hp.vn
          have := mul_succ_le k4 ho
          have h5 : q * Ks p w ≤ q * Kr p w := Int.mul_le_mul_of_nonneg_left hKK hq0
          omega

theorem no_overlap_recv {p : Prob} (hp : p.Ok) (w q q' : Int) (hne : q ≠ q')
    (a : Int) (h1 : rbo p w q ≤ a) (h2 : a < rbo p w q + sbs p q w) (h3 : rbo p w q' ≤ a) (h4 : a < rbo p w q' + sbs p q' w) : False := by
  rw [rbo_eq] at *
  have k2 := rbs_le_Kr hp w q
  have k2' := rbs_le_Kr hp w q'
  have k3 := Kr_nonneg hp w
  rcases lt_or_gt_of_ne hne with h | h
  · have := mul_succ_le k3 h; omega
  · have := mul_succ_le k3 h; omega

/-- effect of one step -/
theorem recvStep_out {α : Type} {p : Prob} (mem : Int → Int → α) (w q a : Int)
    (h : ¬ (rbo p w q ≤ a ∧ a < rbo p w q + sbs p q w)) : recvStep p mem w q a = mem w a := by
  unfold recvStep
  by_cases hq : q = w
  · subst hq
    rw [if_pos rfl, if_neg (by tauto)]
  · rw [if_neg hq, if_neg h]

theorem recvStep_in {α : Type} {p : Prob} (mem : Int → Int → α) (w q t : Int) (h0 : 0 ≤ t) (h : t < sbs p q w) :
    recvStep p mem w q (rbo p w q + t) = mem q (sbo p q w + t) := by
  unfold recvStep
  by_cases hq : q = w
  · subst hq
    rw [if_pos rfl]
    by_cases he : rbo p q q = sbo p q q
    · rw [if_neg (by tauto), he]
    · rw [if_pos ⟨he, by omega, by omega⟩]
      congr 1; omega
  · rw [if_neg hq, if_pos ⟨by omega, by omega⟩]
    congr 1; omega

theorem exchange_ok {α : Type} {p : Prob} (hp : p.Ok) (npes : Nat) (sched : Nat → List Int) (σ : Nat → Nat)
    (hσ : ∀ k, k < npes → σ k < npes) (hinj : ∀ k l, k < npes → l < npes → σ k = σ l → k = l)
    (hsch : ∀ w, w < npes → sched w = (List.range npes).map fun k => meet npes w (σ k))
    (hord : ∀ w : Nat, w < npes → Needs p w → ∀ k l, k < l → l < npes →
      if blockZ p.nx p.block w * p.tblock > p.block * blockZ p.ny p.tblock w then meet npes w (σ k) < meet npes w (σ l)
      else meet npes w (σ l) < meet npes w (σ k))
    (mem0 : Int → Int → α) :
    ∀ (k s : Nat) (mem : Int → Int → α), s + k = npes →
      (∀ w : Nat, w < npes → ∀ j, j < s → ∀ t, 0 ≤ t → t < sbs p (meet npes w (σ j)) w →
        mem w (rbo p w (meet npes w (σ j)) + t) = mem0 (meet npes w (σ j)) (sbo p (meet npes w (σ j)) w + t)) →
      (∀ w : Nat, w < npes → ∀ j, s ≤ j → j < npes → ∀ t, 0 ≤ t → t < sbs p w (meet npes w (σ j)) →
        mem w (sbo p w (meet npes w (σ j)) + t) = mem0 w (sbo p w (meet npes w (σ j)) + t)) →
      ∃ mem', exchange p npes sched k s mem = some mem' ∧
        ∀ w : Nat, w < npes → ∀ j, j < npes → ∀ t, 0 ≤ t → t < sbs p (meet npes w (σ j)) w →
          mem' w (rbo p w (meet npes w (σ j)) + t) = mem0 (meet npes w (σ j)) (sbo p (meet npes w (σ j)) w + t) := by
  intro k
  induction k with
  | zero =>
    intro s mem hs h1 _
    exact ⟨mem, rfl, fun w hw j hj => h1 w hw j (by omega)⟩
  | succ k ih =>
    intro s mem hs h1 h2
    have hsn : s < npes := by omega
    have hpart : ∀ w : Nat, w < npes → (sched w).getD s (-1) = meet npes w (σ s) := by
      intro w hw
      rw [hsch w hw, List.getD_eq_getElem?_getD]
      simp [hsn]
    have hr : ∀ (w : Nat), w < npes → ∀ j, j < npes → 0 ≤ meet npes w (σ j) ∧ meet npes w (σ j) < npes :=
      fun w hw j hj => meet_range npes w (σ j) (by omega) (by omega) (hσ j hj)
    have hne : ∀ (w : Nat), w < npes → ∀ i j, i < npes → j < npes → i ≠ j → meet npes w (σ i) ≠ meet npes w (σ j) := by
      intro w hw i j hi hj hij hc
      exact hij (hinj i j hi hj (meet_inj npes w _ _ (by omega) (by omega) (hσ i hi) (hσ j hj) hc))
    have hstep : stepAll p npes (fun w => (sched w).getD s (-1)) mem =
        some fun (w : Int) a => if 0 ≤ w ∧ w < npes then recvStep p mem w ((sched w.toNat).getD s (-1)) a else mem w a := by
      unfold stepAll
      rw [if_pos]
      intro w
      have hw := w.2
      beta_reduce
      rw [hpart w hw]
      have hrr := hr w hw s hsn
      refine ⟨hrr.1, hrr.2, ?_, ?_, ?_⟩
      · rw [hpart _ (by omega)]
        rw [Int.toNat_of_nonneg hrr.1]
        exact meet_invol npes w (σ s) (by omega) (by omega) (hσ s hsn)
      · rw [rbs_eq_sbs]
      · unfold sbs
        apply Int.mul_le_mul_of_nonneg_right _ hp.vn
        apply Int.mul_le_mul_of_nonneg_left _ (blockZ_bounds _ _ _ hp.b).1
        exact blockZ_anti _ _ _ _ hp.t hrr.1
    rw [exchange, hstep]
    simp only [Option.bind_eq_bind, Option.bind_some]
    have hval : ∀ (w : Nat), w < npes → ∀ a, (if 0 ≤ (w : Int) ∧ (w : Int) < npes then recvStep p mem w ((sched (w : Int).toNat).getD s (-1)) a else mem w a) =
        recvStep p mem w (meet npes w (σ s)) a := by
      intro w hw a
      rw [if_pos (by omega), show ((w : Int).toNat) = w by omega, hpart w hw]
    apply ih (s + 1) _ (by omega)
    · intro w hw j hj t ht0 ht
      rw [hval w hw]
      by_cases hjs : j = s
      · subst hjs
        rw [recvStep_in mem w _ t ht0 ht]
        -- partner's send block is still intact
        have hrr := hr w hw j hsn
        have hinv := meet_invol npes w (σ j) (by omega) (by omega) (hσ j hsn)
        have := h2 (meet npes w (σ j)).toNat (by omega) j (le_refl j) hsn t ht0
        rw [Int.toNat_of_nonneg hrr.1, hinv] at this
        exact this ht
      · rw [recvStep_out]
        · exact h1 w hw j (by omega) t ht0 ht
        · rintro ⟨c1, c2⟩
          exact no_overlap_recv hp w _ _ (hne w hw s j hsn (by omega) (by omega)) _ c1 c2 (by omega) (by omega)
    · intro w hw j hj1 hj2 t ht0 ht
      rw [hval w hw, recvStep_out]
      · exact h2 w hw j (by omega) hj2 t ht0 ht
      · rintro ⟨c1, c2⟩
        exact no_overlap hp w _ _ (hr w hw s hsn).1 (hr w hw j hj2).1 (hne w hw s j hsn hj2 (by omega))
          (fun hn => hord w hw hn s j (by omega) hj2) _ c1 c2 (by omega) (by omega)

theorem mapM_some {β γ : Type} (f : β → Option γ) (g : β → γ) : ∀ l : List β, (∀ x ∈ l, f x = some (g x)) → l.mapM f = some (l.map g) := by
  intro l
  induction l with
  | nil => intro _; rfl
  | cons a l ih =>
    intro h
    rw [List.mapM_cons, h a (by simp), ih (fun x hx => h x (by simp [hx]))]
    rfl

/-- shape of the schedules -/
theorem schedules_ok {p : Prob} (hp : p.Ok) (junk : Nat → List Int) (hj : ∀ w, (junk w).length = nPes p) :
    ∃ σ : Nat → Nat, schedules p junk = some ((List.range (nPes p)).map fun w : Nat => (List.range (nPes p)).map fun k => meet (nPes p) w (σ k)) ∧
      (∀ k, k < nPes p → σ k < nPes p) ∧ (∀ k l, k < nPes p → l < nPes p → σ k = σ l → k = l) ∧
      (∀ w : Nat, w < nPes p → Needs p w → ∀ k l, k < l → l < nPes p →
        if blockZ p.nx p.block w * p.tblock > p.block * blockZ p.ny p.tblock w then meet (nPes p) w (σ k) < meet (nPes p) w (σ l)
        else meet (nPes p) w (σ l) < meet (nPes p) w (σ k)) := by
  unfold schedules
  simp only []
  generalize hN : nPes p = npes at *
  -- the common shape of the schedules
  have key : ∃ (sp : Int) (asc : Bool) (σ : Nat → Nat), sortSearch p (List.range npes) (-1, true) = some (sp, asc) ∧
      (∀ k, k < npes → σ k < npes) ∧ (∀ k l, k < npes → l < npes → σ k = σ l → k = l) ∧
      (∀ w : Nat, w < npes → mkSched w npes sp asc (junk w) = some ((List.range npes).map fun k => meet npes w (σ k))) ∧
      (∀ w : Nat, w < npes → Needs p w → ∀ k l, k < l → l < npes →
        if blockZ p.nx p.block w * p.tblock > p.block * blockZ p.ny p.tblock w then meet npes w (σ k) < meet npes w (σ l)
        else meet npes w (σ l) < meet npes w (σ k)) := by
    rcases sortSearch_some hp (List.range npes) List.pairwise_lt_range with ⟨h1, h2⟩ | ⟨pe, h1, h2, h3, h4⟩
    · refine ⟨-1, true, id, h2, fun k hk => hk, fun k l _ _ h => h, ?_, ?_⟩
      · intro w hw
        unfold mkSched
        rw [fill1_eq npes w (by omega) (by omega)]
        simp only [Option.bind_eq_bind, Option.bind_some]
        rw [if_neg (by omega)]
        rfl
      · intro w hw hn
        exact absurd hn (h1 w (List.mem_range.2 hw))
    · have hpe := List.mem_range.1 h1
      obtain ⟨σ, s1, s2, s3⟩ := mkSched_sorted npes pe (decide (blockZ p.nx p.block pe * p.tblock > p.block * blockZ p.ny p.tblock pe)) (by omega) (by omega)
      refine ⟨pe, _, σ, h4, fun k hk => (s1 k hk).1, s2, fun w hw => s3 w _ (by omega) (by omega) (hj w), ?_⟩
      intro w hw hn k l hkl hl
      obtain rfl := h3 w (List.mem_range.2 hw) hn
      have e1 := (s1 k (by omega)).2
      have e2 := (s1 l hl).2
      rw [e1, e2]
      split
      · rename_i hgt
        simp only [hgt, decide_true, if_true]; omega
      · rename_i hgt
        simp only [hgt, decide_false, Bool.false_eq_true, if_false]; omega
  obtain ⟨sp, asc, σ, k1, k2, k3, k4, k5⟩ := key
  rw [k1]
  simp only [Option.bind_eq_bind, Option.bind_some]
  rw [mapM_some _ (fun w : Nat => (List.range npes).map fun k => meet npes w (σ k)) _ (fun w hw => k4 w (List.mem_range.1 hw))]
  exact ⟨σ, rfl, k2, k3, k5⟩

theorem transposeChunks_ok {α : Type} {p : Prob} (hp : p.Ok) (junk : Nat → List Int) (hj : ∀ w, (junk w).length = nPes p) (mem : Int → Int → α) :
    ∃ mem', transposeChunks p junk mem = some mem' ∧
      ∀ w q : Nat, w < nPes p → q < nPes p → ∀ t, 0 ≤ t → t < sbs p q w → mem' w (rbo p w q + t) = mem q (sbo p q w + t) := by
  unfold transposeChunks
  obtain ⟨σ, k4, k2, k3, k5⟩ := schedules_ok hp junk hj
  generalize hN : nPes p = npes at *
  rw [k4]
  simp only [Option.bind_eq_bind]
  simp only [Option.bind_some]
  obtain ⟨mem', h1, h2⟩ := exchange_ok hp npes
    (fun w => ((List.range npes).map fun w : Nat => (List.range npes).map fun k => meet npes w (σ k)).getD w []) σ k2 k3
    (by intro w hw; rw [List.getD_eq_getElem?_getD]; simp [hw]) k5 mem npes 0 mem (by omega) (by intro _ _ j hj; omega) (by intros; rfl)
  refine ⟨mem', h1, ?_⟩
  intro w q hw hq t ht0 ht
  obtain ⟨s, hs, hms⟩ := meet_surj npes w (by omega) (by omega) q hq
  -- σ is onto
  have hsur : ∃ j, j < npes ∧ σ j = s := by
    let f : Fin npes → Fin npes := fun j => ⟨σ j, k2 j j.2⟩
    have hf : Function.Injective f := fun a b hab => Fin.ext (k3 a b a.2 b.2 (congrArg Fin.val hab))
    obtain ⟨j, hj⟩ := (Finite.injective_iff_surjective.1 hf) ⟨s, hs⟩
    exact ⟨j, j.2, congrArg Fin.val hj⟩
  obtain ⟨j, hj, rfl⟩ := hsur
  have := h2 w hw j hj t ht0
  rw [hms] at this
  exact this ht

/-- per-process view of the lock-step states -/
theorem async_ok {α : Type} {p : Prob} (scheds : List (List Int))
    (part : Nat → Nat → Nat) (hpart : ∀ w, w < nPes p → ∀ s, s < nPes p → (scheds.getD w []).getD s (-1) = part w s)
    (hr : ∀ w, w < nPes p → ∀ s, s < nPes p → part w s < nPes p)
    (hinv : ∀ w, w < nPes p → ∀ s, s < nPes p → part (part w s) s = w)
    (hinj : ∀ w, w < nPes p → ∀ s t, s < nPes p → t < nPes p → part w s = part w t → s = t)
    (L : Nat → Int → Int → α) (hL : ∀ s, s < nPes p → ∀ w : Nat, w < nPes p → ∀ a, L (s + 1) w a = recvStep p (L s) w (part w s) a)
    (c0 c : Conf α) (h0 : ∀ w, w < nPes p → c0.pc w = 0) (hm0 : c0.mem = L 0)
    (hc : Relation.ReflTransGen (AsyncStep p scheds) c0 c) :
    (∀ w, w < nPes p → c.pc w ≤ nPes p) ∧ (∀ w : Nat, w < nPes p → ∀ a, c.mem w a = L (c.pc w) w a) ∧
    (∀ w, w < nPes p → ∀ s, s < c.pc w → s < c.pc (part w s)) := by
  have hrec : ∀ (M M' : Int → Int → α) (w q : Nat), (∀ a, M w a = M' w a) → (∀ a, M q a = M' q a) → ∀ a, recvStep p M w q a = recvStep p M' w q a := by
    intro M M' w q h1 h2 a
    unfold recvStep
    split
    · split <;> rw [h1]
    · split
      · rw [h2]
      · rw [h1]
  induction hc with
  | refl =>
    refine ⟨fun w hw => by rw [h0 w hw]; omega, fun w hw a => by rw [h0 w hw, hm0], fun w hw s hs => by rw [h0 w hw] at hs; omega⟩
  | tail _ hstep ih =>
    obtain ⟨i1, i2, i3⟩ := ih
    cases hstep with
    | own w hw hlt h =>
      rename_i c _
      rw [hpart w hw _ hlt] at h
      have hpw : part w (c.pc w) = w := by exact_mod_cast h
      refine ⟨?_, ?_, ?_⟩
      · intro x hx
        dsimp only
        by_cases hxw : x = w
        · simp only [hxw, if_true]; omega
        · simp only [hxw, if_false]; exact i1 x hx
      · intro x hx a
        by_cases hxw : x = w
        · subst hxw
          simp only [if_true]
          rw [hL _ hlt x hw, hpw]
          exact hrec _ _ x x (i2 x hw) (i2 x hw) a
        · have : ¬ ((x : Int) = w) := by exact_mod_cast hxw
          simp only [hxw, this, if_false]; exact i2 x hx a
      · intro x hx s hs
        dsimp only at hs ⊢
        by_cases hxw : x = w
        · subst hxw
          simp only [if_true] at hs
          by_cases hs2 : s = c.pc x
          · subst hs2; rw [hpw]; simp
          · have := i3 x hx s (by omega)
            split
            · rename_i he; rw [he] at this; omega
            · exact this
        · simp only [hxw, if_false] at hs
          have := i3 x hx s hs
          split
          · rename_i he; rw [he] at this; omega
          · exact this
    | pair w q hw hq hne hlt hlt' h h' =>
      rename_i c _
      rw [hpart w hw _ hlt] at h
      rw [hpart q hq _ hlt'] at h'
      have hpw : part w (c.pc w) = q := by exact_mod_cast h
      have hpq : part q (c.pc q) = w := by exact_mod_cast h'
      have hpc : c.pc q = c.pc w := by
        have := hinv w hw _ hlt
        rw [hpw] at this
        exact hinj q hq _ _ hlt' hlt (hpq.trans this.symm)
      refine ⟨?_, ?_, ?_⟩
      · intro x hx
        have := i1 x hx
        dsimp only
        split
        · omega
        · split <;> omega
      · intro x hx a
        by_cases hxw : x = w
        · subst hxw
          simp only [if_true]
          rw [hL _ hlt x hw, hpw]
          exact hrec _ _ x q (i2 x hw) (fun a => by rw [i2 q hq, hpc]) a
        · have h1 : ¬ ((x : Int) = w) := by exact_mod_cast hxw
          by_cases hxq : x = q
          · subst hxq
            simp only [h1, hxw, if_true, if_false]
            rw [hL _ hlt' x hx, hpq]
            exact hrec _ _ x w (i2 x hx) (fun a => by rw [i2 w hw, hpc]) a
          · have h2 : ¬ ((x : Int) = q) := by exact_mod_cast hxq
            simp only [hxw, hxq, h1, h2, if_false]; exact i2 x hx a
      · intro x hx s hs
        dsimp only at hs ⊢
        have hmono : ∀ y, c.pc y ≤ (if y = w then c.pc w + 1 else if y = q then c.pc q + 1 else c.pc y) := by
          intro y; split
          · rename_i he; subst he; omega
          · split
            · rename_i he; subst he; omega
            · omega
        by_cases hxw : x = w
        · subst hxw
          simp only [if_true] at hs
          by_cases hs2 : s = c.pc x
          · subst hs2; rw [hpw]; simp [hne.symm, hpc]
          · exact lt_of_lt_of_le (i3 x hx s (by omega)) (hmono _)
        · by_cases hxq : x = q
          · subst hxq
            simp only [hxw, if_true, if_false] at hs
            by_cases hs2 : s = c.pc x
            · subst hs2; rw [hpq]; simp [hpc]
            · exact lt_of_lt_of_le (i3 x hx s (by omega)) (hmono _)
          · simp only [hxw, hxq, if_false] at hs
            exact lt_of_lt_of_le (i3 x hx s hs) (hmono _)

/-- progress: unless all processes have finished, some step is possible -/
theorem async_progress {α : Type} {p : Prob} (scheds : List (List Int))
    (part : Nat → Nat → Nat) (hpart : ∀ w, w < nPes p → ∀ s, s < nPes p → (scheds.getD w []).getD s (-1) = part w s)
    (hr : ∀ w, w < nPes p → ∀ s, s < nPes p → part w s < nPes p)
    (hinv : ∀ w, w < nPes p → ∀ s, s < nPes p → part (part w s) s = w)
    (c : Conf α) (i1 : ∀ w, w < nPes p → c.pc w ≤ nPes p)
    (i3 : ∀ w, w < nPes p → ∀ s, s < c.pc w → s < c.pc (part w s))
    (hstuck : ¬ ∃ c', AsyncStep p scheds c c') : ∀ w, w < nPes p → c.pc w = nPes p := by
  by_contra hcon
  push Not at hcon
  obtain ⟨w0, hw0, hne0⟩ := hcon
  -- a process with the least loop index
  obtain ⟨w, hwmem, hmin⟩ := Finset.exists_min_image (Finset.range (nPes p)) c.pc ⟨w0, Finset.mem_range.2 hw0⟩
  have hw := Finset.mem_range.1 hwmem
  have hlt : c.pc w < nPes p := by
    have := hmin w0 (Finset.mem_range.2 hw0)
    have := i1 w0 hw0
    omega
  have hq := hr w hw _ hlt
  have hqinv := hinv w hw _ hlt
  have hle := hmin (part w (c.pc w)) (Finset.mem_range.2 hq)
  have hpc : c.pc (part w (c.pc w)) = c.pc w := by
    by_contra hne
    have h1 := i3 (part w (c.pc w)) hq (c.pc w) (by omega)
    rw [hqinv] at h1
    omega
  apply hstuck
  by_cases hself : part w (c.pc w) = w
  · exact ⟨_, AsyncStep.own c w hw hlt (by rw [hpart w hw _ hlt, hself])⟩
  · exact ⟨_, AsyncStep.pair c w (part w (c.pc w)) hw hq (fun h => hself h.symm) hlt (by omega) (hpart w hw _ hlt)
      (by rw [hpc, hpart _ hq _ hlt, hqinv])⟩

/-- lock-step states -/
def lockStates {α : Type} (p : Prob) (npes : Nat) (sched : Nat → List Int) (mem : Int → Int → α) : Nat → Int → Int → α
  | 0 => mem
  | s + 1 => fun w a => if 0 ≤ w ∧ w < npes then recvStep p (lockStates p npes sched mem s) w ((sched w.toNat).getD s (-1)) a
      else lockStates p npes sched mem s w a

theorem exchange_lock {α : Type} (p : Prob) (npes : Nat) (sched : Nat → List Int) (mem mem' : Int → Int → α) :
    ∀ k s, exchange p npes sched k s (lockStates p npes sched mem s) = some mem' → mem' = lockStates p npes sched mem (s + k) := by
  intro k
  induction k with
  | zero => intro s h; rw [exchange] at h; exact (Option.some.inj h).symm
  | succ k ih =>
    intro s h
    rw [exchange, stepAll] at h
    split at h
    · simp only [Option.bind_eq_bind, Option.bind_some] at h
      have := ih (s + 1) h
      rw [this]; congr 1; omega
    · simp at h

theorem async_main {α : Type} {p : Prob} (hp : p.Ok) (junk : Nat → List Int) (hj : ∀ w, (junk w).length = nPes p) (mem : Int → Int → α) :
    ∃ scheds mem', schedules p junk = some scheds ∧ transposeChunks p junk mem = some mem' ∧
      ∀ c, Relation.ReflTransGen (AsyncStep p scheds) ⟨fun _ => 0, mem⟩ c →
        (∀ w, w < nPes p → c.pc w ≤ nPes p) ∧
        ((¬ ∃ c', AsyncStep p scheds c c') → ∀ w : Nat, w < nPes p → c.pc w = nPes p ∧ ∀ a, c.mem w a = mem' w a) := by
  obtain ⟨σ, k4, k2, k3, k5⟩ := schedules_ok hp junk hj
  obtain ⟨mem', h1, h2⟩ := transposeChunks_ok hp junk hj mem
  refine ⟨_, mem', k4, h1, ?_⟩
  unfold transposeChunks at h1
  rw [k4] at h1
  simp only [Option.bind_eq_bind, Option.bind_some] at h1
  generalize hS : ((List.range (nPes p)).map fun w : Nat => (List.range (nPes p)).map fun k => meet (nPes p) w (σ k)) = S at h1 ⊢
  have hl := exchange_lock p (nPes p) (fun w => S.getD w []) mem mem' (nPes p) 0 h1
  have hr : ∀ w : Nat, w < nPes p → ∀ s, s < nPes p → 0 ≤ meet (nPes p) w (σ s) ∧ meet (nPes p) w (σ s) < nPes p :=
    fun w hw j hj => meet_range _ w (σ j) (by omega) (by omega) (k2 j hj)
  have hpart : ∀ w, w < nPes p → ∀ s, s < nPes p → (S.getD w []).getD s (-1) = ((meet (nPes p) w (σ s)).toNat : Int) := by
    intro w hw s hs
    rw [Int.toNat_of_nonneg (hr w hw s hs).1, ← hS, List.getD_eq_getElem?_getD, List.getD_eq_getElem?_getD]; simp [hw, hs]
  have hrn : ∀ w, w < nPes p → ∀ s, s < nPes p → (meet (nPes p) w (σ s)).toNat < nPes p := by
    intro w hw s hs; have := hr w hw s hs; omega
  have hinv : ∀ w, w < nPes p → ∀ s, s < nPes p → (meet (nPes p) ((meet (nPes p) w (σ s)).toNat : Nat) (σ s)).toNat = w := by
    intro w hw s hs
    rw [Int.toNat_of_nonneg (hr w hw s hs).1, meet_invol _ w (σ s) (by omega) (by omega) (k2 s hs)]; simp
  intro c hc
  obtain ⟨i1, i2, i3⟩ := async_ok S (fun w s => (meet (nPes p) w (σ s)).toNat) hpart hrn hinv
    (by
      intro w hw s t hs ht hst
      have a1 := hr w hw s hs
      have a2 := hr w hw t ht
      exact k3 s t hs ht (meet_inj (nPes p) w _ _ (by omega) (by omega) (k2 s hs) (k2 t ht) (by omega)))
    (lockStates p (nPes p) (fun w => S.getD w []) mem)
    (by
      intro s hs w hw a
      rw [lockStates]
      beta_reduce
      rw [if_pos (show 0 ≤ (w : Int) ∧ (w : Int) < nPes p by omega)]
      rw [show ((w : Int).toNat) = w by omega, hpart w hw s hs])
    ⟨fun _ => 0, mem⟩ c (fun _ _ => rfl) rfl hc
  refine ⟨i1, ?_⟩
  intro hst w hw
  have hpc := async_progress S (fun w s => (meet (nPes p) w (σ s)).toNat) hpart hrn hinv c i1 i3 hst w hw
  refine ⟨hpc, fun a => ?_⟩
  rw [i2 w hw, hpc, hl, Nat.zero_add]

/-- every step makes progress -/
theorem async_measure {α : Type} {p : Prob} {scheds : List (List Int)} {c c' : Conf α} (h : AsyncStep p scheds c c') :
    ∑ w ∈ Finset.range (nPes p), c.pc w < ∑ w ∈ Finset.range (nPes p), c'.pc w := by
  cases h with
  | own w hw hlt h =>
    apply Finset.sum_lt_sum
    · intro i _; dsimp only; split
      · rename_i he; subst he; omega
      · omega
    · exact ⟨w, Finset.mem_range.2 hw, by simp⟩
  | pair w q hw hq hne hlt hlt' h h' =>
    apply Finset.sum_lt_sum
    · intro i _; dsimp only; split
      · rename_i he; subst he; omega
      · split
        · rename_i he; subst he; omega
        · omega
    · exact ⟨w, Finset.mem_range.2 hw, by simp⟩

end FFTW.MpiExchange
