import Verif.Spec.Wisdom
import Verif.Model.Htab
import Verif.Props.Primes
import Mathlib.Data.Multiset.Basic
import Mathlib.Data.ZMod.Basic
import Mathlib.NumberTheory.Bertrand

namespace FFTW.Planner

/-- the `i`-th slot visited for a signature -/
def chain (n : ℕ) (s : MSig) (i : ℕ) : ℕ := (s.s0 % n + i * (1 + s.s1 % (n - 1))) % n

theorem chain_zero {n : ℕ} (s : MSig) : chain n s 0 = s.s0 % n := by simp [chain]

theorem chain_lt {n : ℕ} (hn : 0 < n) (s : MSig) (i : ℕ) : chain n s i < n := Nat.mod_lt _ hn

theorem d_lt {n : ℕ} (hn : 2 ≤ n) (s : MSig) : 1 + s.s1 % (n - 1) < n ∧ 0 < 1 + s.s1 % (n - 1) ∨ n = 2 ∧ 1 + s.s1 % (n - 1) = 1 := by
  have := Nat.mod_lt s.s1 (show 0 < n - 1 by omega)
  left; omega

theorem addmod_chain {n : ℕ} (hn : 2 ≤ n) (s : MSig) (i : ℕ) : addmod (chain n s i) (1 + s.s1 % (n - 1)) n = chain n s (i + 1) := by
  have h1 := chain_lt (by omega : 0 < n) s i
  have h2 := Nat.mod_lt s.s1 (show 0 < n - 1 by omega)
  have h3 : chain n s (i + 1) = (chain n s i + (1 + s.s1 % (n - 1))) % n := by
    unfold chain
    generalize 1 + s.s1 % (n - 1) = d
    generalize s.s0 % n = a
    rw [Nat.mod_add_mod]
    congr 1
    ring
  rw [h3]
  unfold addmod
  have hd : 1 + s.s1 % (n - 1) < n := by omega
  generalize 1 + s.s1 % (n - 1) = d at hd ⊢
  generalize chain n s i = c at h1 ⊢
  dsimp only
  split
  · rw [Nat.mod_eq_sub_mod (by omega), Nat.mod_eq_of_lt (by omega)]
  · rw [Nat.mod_eq_of_lt (by omega)]

theorem chain_inj {n : ℕ} (hp : n.Prime) (s : MSig) {i j : ℕ} (hi : i < n) (hj : j < n) (h : chain n s i = chain n s j) : i = j := by
  have h2 := Nat.mod_lt s.s1 (show 0 < n - 1 by have := hp.two_le; omega)
  set d := 1 + s.s1 % (n - 1) with hd
  have hdn : d < n := by omega
  have h' : s.s0 % n + i * d ≡ s.s0 % n + j * d [MOD n] := h
  have h3 : i * d ≡ j * d [MOD n] := Nat.ModEq.add_left_cancel' _ h'
  have hc : Nat.gcd n d = 1 := (Nat.coprime_primes_or_dvd hp d).elim id (fun h => absurd (Nat.le_of_dvd (by omega) h) (by omega))
  have h4 := Nat.ModEq.cancel_right_of_coprime hc h3
  have := h4
  unfold Nat.ModEq at this
  rwa [Nat.mod_eq_of_lt hi, Nat.mod_eq_of_lt hj] at this
where
  Nat.coprime_primes_or_dvd {n : ℕ} (hp : n.Prime) (d : ℕ) : Nat.gcd n d = 1 ∨ n ∣ d :=
    (Nat.Prime.coprime_iff_not_dvd hp |>.2 · |> fun h => h) |> fun f => by
      by_cases h : n ∣ d
      · exact Or.inr h
      · exact Or.inl (f h)

theorem chain_surj {n : ℕ} (hp : n.Prime) (s : MSig) {g : ℕ} (hg : g < n) : ∃ i < n, chain n s i = g := by
  have hinj : Function.Injective (fun i : Fin n => (⟨chain n s i, chain_lt hp.pos s i⟩ : Fin n)) := by
    intro a b h
    exact Fin.ext (chain_inj hp s a.2 b.2 (congrArg Fin.val h))
  obtain ⟨i, hi⟩ := (Finite.injective_iff_surjective.1 hinj) ⟨g, hg⟩
  exact ⟨i, i.2, congrArg Fin.val hi⟩

/-! ### contents and invariant -/

/-- the entry stored in a slot -/
def Slot.entry (x : Slot) : Entry := ⟨x.s, x.fl.l, x.fl.u, x.fl.tli, x.slvndx⟩

/-- the live entries, with multiplicity -/
def HTab.contents (t : HTab) : Multiset Entry := ((t.sols.filter Slot.live).map Slot.entry : List Entry)

/-- the table invariant -/
structure HTab.Inv (t : HTab) : Prop where
  prime : t.siz.Prime
  count : t.nelem = (t.sols.filter Slot.live).length
  room : t.nelem < t.siz
  live_valid : ∀ x ∈ t.sols, x.live = true → x.valid = true
  reach : ∀ g x, t.sols[g]? = some x → x.live = true →
    ∃ i < t.siz, chain t.siz x.s i = g ∧ ∀ j < i, ∃ y, t.sols[chain t.siz x.s j]? = some y ∧ y.valid = true

theorem getElem?_chain {t : HTab} (h : 0 < t.siz) (s : MSig) (i : ℕ) : ∃ x, t.sols[chain t.siz s i]? = some x := by
  have := chain_lt h s i
  exact ⟨_, List.getElem?_eq_getElem this⟩

theorem h1_eq {t : HTab} (h : 2 ≤ t.siz) (s : MSig) : h1 t s = some (chain t.siz s 0) := by
  rw [h1, if_neg (by omega), chain_zero]
theorem h2_eq {t : HTab} (h : 2 ≤ t.siz) (s : MSig) : h2 t s = some (1 + s.s1 % (t.siz - 1)) := by
  rw [h2, if_neg (by omega)]

/-! ### lookup -/

/-- is `x` an acceptable answer -/
def Slot.cand (s : MSig) (f : FlagsT) (x : Slot) : Prop := x.live = true ∧ x.s = s ∧ subsumes x.fl x.slvndx f = true

/-- what the loop maintains about `best` w.r.t. the slots seen so far -/
def BestOf (s : MSig) (f : FlagsT) (P : Slot → Prop) (best : Option Slot) : Prop :=
  (∀ b, best = some b → P b ∧ b.cand s f ∧ ∀ c, P c → c.cand s f → LEQ c.fl.u b.fl.u = true → c.fl.u = b.fl.u) ∧
  (best = none → ∀ c, P c → ¬ c.cand s f)

theorem LEQ_trans {w : ℕ} {x y z : BitVec w} (h : LEQ x y = true) (h' : LEQ y z = true) : LEQ x z = true := by
  simp only [LEQ, decide_eq_true_eq] at *
  rw [← h, BitVec.and_assoc, h']

theorem LEQ_antisymm {w : ℕ} {x y : BitVec w} (h : LEQ x y = true) (h' : LEQ y x = true) : x = y := by
  simp only [LEQ, decide_eq_true_eq] at *
  calc x = x &&& y := h.symm
    _ = y &&& x := BitVec.and_comm _ _
    _ = y := h'

theorem LEQ_refl {w : ℕ} (x : BitVec w) : LEQ x x = true := by simp [LEQ]

theorem bestOf_step {s : MSig} {f : FlagsT} {P : Slot → Prop} {best : Option Slot} (h : BestOf s f P best) (l : Slot) :
    BestOf s f (fun x => P x ∨ x = l) (if betterp s f l best then some l else best) := by
  obtain ⟨h1, h2⟩ := h
  have key : betterp s f l best = true ↔ l.cand s f ∧ ∀ b, best = some b → LEQ l.fl.u b.fl.u = true := by
    unfold betterp Slot.cand
    cases best with
    | none => simp; tauto
    | some b => simp; tauto
  split
  · rename_i hb
    obtain ⟨hc, hb⟩ := key.1 hb
    refine ⟨?_, by simp⟩
    intro b hbl
    obtain rfl := Option.some.inj hbl
    refine ⟨Or.inr rfl, hc, ?_⟩
    rintro c (hP | rfl) hcc hle
    · cases best with
      | none => exact absurd hcc (h2 rfl c hP)
      | some b =>
        obtain ⟨_, _, h3⟩ := h1 b rfl
        have h4 := h3 c hP hcc (LEQ_trans hle (hb b rfl))
        exact LEQ_antisymm hle (by rw [h4]; exact hb b rfl)
    · rfl
  · rename_i hb
    have hb := fun h => hb (key.2 h)
    constructor
    · intro b hbest
      obtain ⟨hP, hc, h3⟩ := h1 b hbest
      refine ⟨Or.inl hP, hc, ?_⟩
      rintro c (hPc | rfl) hcc hle
      · exact h3 c hPc hcc hle
      · exact absurd ⟨hcc, fun b' hb' => by rw [hbest] at hb'; obtain rfl := Option.some.inj hb'; exact hle⟩ hb
    · intro hn
      rintro c (hPc | rfl) hcc
      · exact h2 hn c hPc hcc
      · exact hb ⟨hcc, fun b' hb' => by rw [hn] at hb'; simp at hb'⟩

/-- slot `x` is among the first `i` slots of the chain -/
def HTab.seen (t : HTab) (s : MSig) (i : ℕ) (x : Slot) : Prop := ∃ j < i, t.sols[chain t.siz s j]? = some x

theorem seen_succ {t : HTab} {s : MSig} {i : ℕ} {l : Slot} (hl : t.sols[chain t.siz s i]? = some l) (x : Slot) :
    t.seen s (i + 1) x ↔ t.seen s i x ∨ x = l := by
  unfold HTab.seen
  constructor
  · rintro ⟨j, hj, hx⟩
    rcases Nat.lt_succ_iff_lt_or_eq.1 hj with h | rfl
    · exact Or.inl ⟨j, h, hx⟩
    · rw [hl] at hx; exact Or.inr (Option.some.inj hx).symm
  · rintro (⟨j, hj, hx⟩ | rfl)
    · exact ⟨j, by omega, hx⟩
    · exact ⟨i, by omega, hl⟩

theorem lookupLoop_spec {t : HTab} (hp : t.siz.Prime) (s : MSig) (f : FlagsT) (k : ℕ) : ∀ i best, i + k = t.siz → 0 < k →
    (∀ j < i, ∃ y, t.sols[chain t.siz s j]? = some y ∧ y.valid = true) → BestOf s f (t.seen s i) best →
    ∃ r m, lookupLoop t s f (chain t.siz s 0) (1 + s.s1 % (t.siz - 1)) (chain t.siz s i) best = some r ∧
      BestOf s f (t.seen s m) r ∧ m ≤ t.siz ∧
      (m < t.siz → ∃ y, t.sols[chain t.siz s m]? = some y ∧ y.valid = false) := by
  induction k with
  | zero => intro i best _ h; omega
  | succ k ih =>
    intro i best hik _ hv hb
    obtain ⟨l, hl⟩ := getElem?_chain hp.pos s i
    rw [lookupLoop, hl]
    simp only
    by_cases hval : l.valid = true
    · rw [if_pos hval, addmod_chain hp.two_le]
      have hb' := bestOf_step hb l
      have hb'' : BestOf s f (t.seen s (i + 1)) (if betterp s f l best then some l else best) := by
        have : t.seen s (i + 1) = fun x => t.seen s i x ∨ x = l := by funext x; exact propext (seen_succ hl x)
        rw [this]; exact hb'
      by_cases hk : k = 0
      · subst hk
        have : chain t.siz s (i + 1) = chain t.siz s 0 := by
          rw [show i + 1 = t.siz by omega]
          simp [chain]
        rw [this, if_neg (by simp)]
        exact ⟨_, i + 1, rfl, hb'', by omega, fun h => by omega⟩
      · have hne : chain t.siz s (i + 1) ≠ chain t.siz s 0 := by
          intro h
          have := chain_inj hp s (by omega) hp.pos h
          omega
        rw [if_pos hne]
        refine ih (i + 1) _ (by omega) (by omega) ?_ hb''
        intro j hj
        rcases Nat.lt_succ_iff_lt_or_eq.1 hj with h | rfl
        · exact hv j h
        · exact ⟨l, hl, hval⟩
    · rw [if_neg hval]
      exact ⟨best, i, rfl, hb, by omega, fun _ => ⟨l, hl, by simpa using hval⟩⟩

/-- every live entry with the right signature is seen before the first invalid slot -/
theorem seen_of_live {t : HTab} (hi : t.Inv) {s : MSig} {m : ℕ} (hm : m ≤ t.siz)
    (hstop : m < t.siz → ∃ y, t.sols[chain t.siz s m]? = some y ∧ y.valid = false)
    {x : Slot} (hx : x ∈ t.sols) (hl : x.live = true) (hs : x.s = s) : t.seen s m x := by
  obtain ⟨g, hg⟩ := List.getElem?_of_mem hx
  obtain ⟨i, hi', hc, hv⟩ := hi.reach g x hg hl
  subst hs
  refine ⟨i, ?_, by rw [hc]; exact hg⟩
  by_contra hcon
  have : m < t.siz := by omega
  obtain ⟨y, hy, hyv⟩ := hstop this
  rcases Nat.lt_or_ge m i with h | h
  · obtain ⟨y', hy', hv'⟩ := hv m h
    rw [hy] at hy'; obtain rfl := Option.some.inj hy'
    rw [hyv] at hv'; exact absurd hv' (by simp)
  · have : m = i := by omega
    subst this
    rw [hc, hg] at hy
    obtain rfl := Option.some.inj hy
    rw [hi.live_valid x hx hl] at hyv; simp at hyv

theorem seen_mem {t : HTab} {s : MSig} {m : ℕ} {x : Slot} (h : t.seen s m x) : x ∈ t.sols := by
  obtain ⟨j, _, hx⟩ := h
  exact List.mem_of_getElem? hx

theorem htabLookup_spec {t : HTab} (hi : t.Inv) (s : MSig) (f : FlagsT) :
    ∃ r, htabLookup t s f = some r ∧ BestOf s f (fun x => x ∈ t.sols) r := by
  have hp := hi.prime
  obtain ⟨r, m, hr, hb, hm, hstop⟩ := lookupLoop_spec hp s f t.siz 0 none (by omega) hp.pos (by omega)
    ⟨by simp, fun _ c ⟨j, hj, _⟩ => by omega⟩
  refine ⟨r, ?_, ?_⟩
  · unfold htabLookup
    rw [h1_eq hp.two_le, h2_eq hp.two_le]
    exact hr
  · constructor
    · intro b hb'
      obtain ⟨h1, h2, h3⟩ := hb.1 b hb'
      exact ⟨seen_mem h1, h2, fun c hc hcc => h3 c (seen_of_live hi hm hstop hc hcc.1 hcc.2.1) hcc⟩
    · intro hn c hc hcc
      exact hb.2 hn c (seen_of_live hi hm hstop hc hcc.1 hcc.2.1) hcc

/-! ### free slot -/

theorem freeLoop_spec {t : HTab} (hp : t.siz.Prime) (s : MSig) (k : ℕ) : ∀ i, i + k = t.siz →
    (∃ j, i ≤ j ∧ j < t.siz ∧ ∃ y, t.sols[chain t.siz s j]? = some y ∧ y.live = false) →
    (∀ j < i, ∃ y, t.sols[chain t.siz s j]? = some y ∧ y.live = true) →
    ∃ m x, m < t.siz ∧ freeLoop t (1 + s.s1 % (t.siz - 1)) (chain t.siz s i) = some (chain t.siz s m) ∧
      t.sols[chain t.siz s m]? = some x ∧ x.live = false ∧ ∀ j < m, ∃ y, t.sols[chain t.siz s j]? = some y ∧ y.live = true := by
  induction k with
  | zero => rintro i h ⟨j, h1, h2, _⟩; omega
  | succ k ih =>
    rintro i hik ⟨j, hij, hj, y, hy, hyl⟩ hv
    obtain ⟨l, hl⟩ := getElem?_chain hp.pos s i
    rw [freeLoop, hl]
    simp only
    by_cases hlive : l.live = true
    · rw [if_pos hlive, addmod_chain hp.two_le]
      refine ih (i + 1) (by omega) ⟨j, ?_, hj, y, hy, hyl⟩ ?_
      · rcases Nat.lt_or_ge i j with h | h
        · omega
        · have : i = j := by omega
          subst this
          rw [hl] at hy; obtain rfl := Option.some.inj hy
          rw [hlive] at hyl; simp at hyl
      · intro j' hj'
        rcases Nat.lt_succ_iff_lt_or_eq.1 hj' with h | rfl
        · exact hv j' h
        · exact ⟨l, hl, hlive⟩
    · rw [if_neg hlive]
      exact ⟨i, l, by omega, rfl, hl, by simpa using hlive, hv⟩

theorem exists_free {t : HTab} (hc : t.nelem = (t.sols.filter Slot.live).length) (hr : t.nelem < t.siz) :
    ∃ (g : ℕ) (y : Slot), t.sols[g]? = some y ∧ y.live = false := by
  by_contra h
  push Not at h
  have : t.sols.filter Slot.live = t.sols := by
    rw [List.filter_eq_self]
    intro a ha
    obtain ⟨g, hg⟩ := List.getElem?_of_mem ha
    have := h g a hg
    simpa using this
  rw [this] at hc
  unfold HTab.siz at hr
  omega

theorem live_filter_set {L : List Slot} {g : ℕ} {x y : Slot} (hx : L[g]? = some x) :
    (((L.set g y).filter Slot.live).map Slot.entry : Multiset Entry) + (if x.live then {x.entry} else 0) =
      ((L.filter Slot.live).map Slot.entry : List Entry) + (if y.live then {y.entry} else 0) := by
  obtain ⟨hg, rfl⟩ := List.getElem?_eq_some_iff.1 hx
  have h1 : (L.set g y).Perm (y :: L.eraseIdx g) := List.set_perm_cons_eraseIdx hg y
  have h2 : L.Perm (L[g] :: L.eraseIdx g) := (List.getElem_cons_eraseIdx_perm hg).symm
  have e1 := Multiset.coe_eq_coe.2 ((h1.filter Slot.live).map Slot.entry)
  have e2 := Multiset.coe_eq_coe.2 ((h2.filter Slot.live).map Slot.entry)
  rw [e1, e2]
  simp only [List.filter_cons]
  generalize L.eraseIdx g = R
  cases hy : y.live <;> cases hx' : (L[g]).live <;>
    simp only [Bool.false_eq_true, if_false, if_true, List.map_cons, ← Multiset.cons_coe, add_zero, Multiset.add_comm _ ({_} : Multiset Entry), Multiset.singleton_add]
  exact Multiset.cons_swap _ _ _

theorem live_count_set {L : List Slot} {g : ℕ} {x y : Slot} (hx : L[g]? = some x) :
    ((L.set g y).filter Slot.live).length + (if x.live then 1 else 0) = (L.filter Slot.live).length + (if y.live then 1 else 0) := by
  have := congrArg Multiset.card (live_filter_set (y := y) hx)
  simp only [Multiset.card_add, Multiset.coe_card, List.length_map] at this
  cases hy : y.live <;> cases hx' : x.live <;> simp_all

/-- entry for the arguments of an insertion -/
def mkEntry (s : MSig) (f : FlagsT) (n : BitVec 12) : Entry := ⟨s, f.l, f.u, f.tli, n⟩

theorem hi_fill (h : BitVec 3) : (h ||| (H_VALID ||| H_LIVE)) &&& H_VALID ≠ 0 ∧ (h ||| (H_VALID ||| H_LIVE)) &&& H_LIVE ≠ 0 := by
  have : ∀ h : BitVec 3, (h ||| (H_VALID ||| H_LIVE)) &&& H_VALID ≠ 0 ∧ (h ||| (H_VALID ||| H_LIVE)) &&& H_LIVE ≠ 0 := by decide
  exact this h

/-- filling a free slot of the chain -/
theorem fillSlot_spec {t : HTab} (hp : t.siz.Prime) (hc : t.nelem = (t.sols.filter Slot.live).length) (hr : t.nelem + 1 < t.siz)
    (hlv : ∀ x ∈ t.sols, x.live = true → x.valid = true)
    (hre : ∀ g x, t.sols[g]? = some x → x.live = true →
      ∃ i < t.siz, chain t.siz x.s i = g ∧ ∀ j < i, ∃ y, t.sols[chain t.siz x.s j]? = some y ∧ y.valid = true)
    {s : MSig} {f : FlagsT} {n : BitVec 12} {m : ℕ} {x : Slot} (hm : m < t.siz) (hx : t.sols[chain t.siz s m]? = some x) (hxl : x.live = false)
    (hv : ∀ j < m, ∃ y, t.sols[chain t.siz s j]? = some y ∧ y.valid = true) :
    ∃ t', fillSlot t s f n (chain t.siz s m) = some t' ∧ t'.Inv ∧ t'.contents = mkEntry s f n ::ₘ t.contents ∧ t'.nelem = t.nelem + 1 ∧ t'.siz = t.siz := by
  set y : Slot := { s := s, fl := { l := f.l, u := f.u, tli := f.tli, hi := x.fl.hi ||| (H_VALID ||| H_LIVE) }, slvndx := n } with hy
  have hyl : y.live = true := by simp only [Slot.live, hy, decide_eq_true_eq]; exact (hi_fill _).2
  have hyv : y.valid = true := by simp only [Slot.valid, hy, decide_eq_true_eq]; exact (hi_fill _).1
  set g := chain t.siz s m with hg
  have hgl : g < t.sols.length := (List.getElem?_eq_some_iff.1 hx).1
  have hget : ∀ k, (t.sols.set g y)[k]? = if k = g then some y else t.sols[k]? := by
    intro k
    rw [List.getElem?_set]
    by_cases h : k = g
    · subst h; simp [hgl]
    · rw [if_neg (fun h' => h h'.symm), if_neg h]
  have hvalid : ∀ (k : ℕ) (z : Slot), t.sols[k]? = some z → z.valid = true → ∃ z' : Slot, (t.sols.set g y)[k]? = some z' ∧ z'.valid = true := by
    intro k z hz hzv
    rw [hget]
    split
    · exact ⟨y, rfl, hyv⟩
    · exact ⟨z, hz, hzv⟩
  refine ⟨_, by rw [fillSlot, hx], ?_, ?_, rfl, by simp [HTab.siz]⟩
  · have hsz : (HTab.mk (t.sols.set g y) (t.nelem + 1)).siz = t.siz := by simp [HTab.siz]
    refine ⟨by rw [hsz]; exact hp, ?_, by rw [hsz]; exact hr, ?_, ?_⟩
    · have := live_count_set (y := y) hx
      rw [hyl, hxl] at this
      simp only [Bool.false_eq_true, if_false, if_true, add_zero] at this
      rw [← hc] at this
      exact this.symm
    · intro z hz hzl
      obtain ⟨k, hk⟩ := List.getElem?_of_mem hz
      rw [hget] at hk
      split at hk
      · obtain rfl := Option.some.inj hk; exact hyv
      · exact hlv z (List.mem_of_getElem? hk) hzl
    · intro k z hz hzl
      rw [hsz]
      simp only at hz
      rw [hget] at hz
      split at hz
      · rename_i hkg
        obtain rfl := Option.some.inj hz
        refine ⟨m, hm, by rw [hkg], ?_⟩
        intro j hj
        obtain ⟨z, hz, hzv⟩ := hv j hj
        exact hvalid _ z hz hzv
      · obtain ⟨i, hi, hci, hvi⟩ := hre k z hz hzl
        refine ⟨i, hi, hci, ?_⟩
        intro j hj
        obtain ⟨z', hz', hzv'⟩ := hvi j hj
        exact hvalid _ z' hz' hzv'
  · have := live_filter_set (y := y) hx
    rw [hyl, hxl] at this
    simp only [Bool.false_eq_true, if_false, if_true, add_zero] at this
    unfold HTab.contents
    simp only
    rw [this, add_comm, Multiset.singleton_add]
    rfl

theorem hinsert0_spec {t : HTab} (hi : t.Inv) (hr : t.nelem + 1 < t.siz) (s : MSig) (f : FlagsT) (n : BitVec 12) :
    ∃ t', hinsert0 t s f n = some t' ∧ t'.Inv ∧ t'.contents = mkEntry s f n ::ₘ t.contents ∧ t'.nelem = t.nelem + 1 ∧ t'.siz = t.siz := by
  have hp := hi.prime
  obtain ⟨g, y, hg, hy⟩ := exists_free hi.count hi.room
  obtain ⟨j, hj, hcj⟩ := chain_surj hp s (List.getElem?_eq_some_iff.1 hg).1
  obtain ⟨m, x, hm, hf, hx, hxl, hv⟩ := freeLoop_spec hp s t.siz 0 (by omega)
    ⟨j, by omega, hj, y, by rw [hcj]; exact hg, hy⟩ (by omega)
  obtain ⟨t', h1, h2⟩ := fillSlot_spec (f := f) (n := n) hp hi.count hr hi.live_valid hi.reach hm hx hxl
    (fun j hj => by
      obtain ⟨y, hy, hyl⟩ := hv j hj
      exact ⟨y, hy, hi.live_valid y (List.mem_of_getElem? hy) hyl⟩)
  refine ⟨t', ?_, h2⟩
  unfold hinsert0
  rw [h1_eq hp.two_le, h2_eq hp.two_le]
  simp only [Option.bind_eq_bind, Option.bind_some]
  rw [hf]
  exact h1

/-! ### growing -/

theorem rehashLoop_spec (L : List Slot) : ∀ t : HTab, t.Inv → t.nelem + (L.filter Slot.live).length < t.siz →
    ∃ t', rehashLoop L t = some t' ∧ t'.Inv ∧ t'.contents = ((L.filter Slot.live).map Slot.entry : List Entry) + t.contents ∧
      t'.nelem = t.nelem + (L.filter Slot.live).length ∧ t'.siz = t.siz := by
  induction L with
  | nil => intro t hi _; exact ⟨t, rfl, hi, by simp, by simp, rfl⟩
  | cons x L ih =>
    intro t hi hr
    rw [rehashLoop]
    by_cases hx : x.live = true
    · rw [List.filter_cons_of_pos hx] at hr ⊢
      simp only [List.length_cons] at hr ⊢
      rw [if_pos hx]
      obtain ⟨t1, h1, h2, h3, h4, h5⟩ := hinsert0_spec hi (by omega) x.s x.fl x.slvndx
      rw [h1]
      simp only
      obtain ⟨t', g1, g2, g3, g4, g5⟩ := ih t1 h2 (by omega)
      refine ⟨t', g1, g2, ?_, by omega, by omega⟩
      rw [g3, h3, List.map_cons, ← Multiset.cons_coe, Multiset.cons_add, Multiset.add_cons]
      rfl
    · rw [List.filter_cons_of_neg hx] at hr ⊢
      rw [if_neg hx]
      exact ih t hi hr

theorem nextPrime_nat {n : ℕ} (h : n ≤ 2 ^ 61) : ∃ p : ℕ, Primes.nextPrime (n : Int) = some (p : Int) ∧ p.Prime ∧ n ≤ p := by
  obtain ⟨p, h1, h2, _⟩ := Props.C09_next_prime (n : Int) (by omega) (by exact_mod_cast h)
  exact ⟨p, h1, h2.1, by exact_mod_cast h2.2⟩

theorem empty_inv {p : ℕ} (hp : p.Prime) : (HTab.mk (List.replicate p emptySlot) 0).Inv := by
  have hf : (List.replicate p emptySlot).filter Slot.live = [] := by
    rw [List.filter_eq_nil_iff]
    intro a ha
    rw [List.eq_of_mem_replicate ha]; decide
  have hl : ∀ x ∈ List.replicate p emptySlot, x.live = false := by
    intro a ha
    rw [List.eq_of_mem_replicate ha]; decide
  refine ⟨by simpa [HTab.siz] using hp, by rw [hf]; rfl, by simpa [HTab.siz] using hp.pos, ?_, ?_⟩
  · intro x hx h; rw [hl x hx] at h; simp at h
  · intro g x hx h; rw [hl x (List.mem_of_getElem? hx)] at h; simp at h

theorem rehash_spec {t : HTab} {n : ℕ} (hn : n ≤ 2 ^ 61) (hr : (t.sols.filter Slot.live).length < n) :
    ∃ t', rehash t n = some t' ∧ t'.Inv ∧ t'.contents = t.contents ∧ t'.nelem = (t.sols.filter Slot.live).length ∧ n ≤ t'.siz := by
  obtain ⟨p, hp1, hp2, hp3⟩ := nextPrime_nat hn
  have hsiz : (HTab.mk (List.replicate p emptySlot) 0).siz = p := by simp [HTab.siz]
  obtain ⟨t', h1, h2, h3, h4, h5⟩ := rehashLoop_spec t.sols ⟨List.replicate p emptySlot, 0⟩ (empty_inv hp2) (by rw [hsiz]; simp only; omega)
  refine ⟨t', ?_, h2, ?_, by simpa using h4, by rw [h5, hsiz]; exact hp3⟩
  · unfold rehash
    rw [hp1]
    simpa using h1
  · rw [h3]
    have : (HTab.mk (List.replicate p emptySlot) 0).contents = 0 := by
      unfold HTab.contents
      rw [List.filter_eq_nil_iff.2]
      · rfl
      · intro a ha; rw [List.eq_of_mem_replicate ha]; decide
    rw [this, add_zero]; rfl

theorem hgrow_spec {t : HTab} (hi : t.Inv) (hn : t.nelem ≤ 2 ^ 60) :
    ∃ t', hgrow t = some t' ∧ t'.Inv ∧ t'.contents = t.contents ∧ t'.nelem + 1 < t'.siz ∧ t'.nelem = t.nelem := by
  unfold hgrow
  split
  · rename_i h
    have hb : t.nelem < nextsz t.nelem ∧ nextsz t.nelem ≤ 2 ^ 61 ∧ t.nelem + 1 < nextsz t.nelem := by
      unfold nextsz minsz; omega
    obtain ⟨t', h1, h2, h3, h4, h5⟩ := rehash_spec (t := t) hb.2.1 (by rw [← hi.count]; exact hb.1)
    exact ⟨t', h1, h2, h3, by rw [h4, ← hi.count]; omega, by rw [h4, ← hi.count]⟩
  · rename_i h
    refine ⟨t, rfl, hi, rfl, ?_, rfl⟩
    unfold minsz at h; omega

theorem mkhashtab_spec : ∃ t, mkhashtab = some t ∧ t.Inv ∧ t.contents = 0 ∧ t.nelem = 0 := by
  unfold mkhashtab hgrow
  rw [if_pos (by simp [minsz, HTab.siz])]
  obtain ⟨t', h1, h2, h3, h4, h5⟩ := rehash_spec (t := ⟨[], 0⟩) (n := nextsz 0) (by unfold nextsz minsz; norm_num) (by simp [nextsz, minsz])
  exact ⟨t', h1, h2, by rw [h3]; rfl, h4⟩

/-! ### insertion -/

/-- will the insertion remove this slot -/
def Slot.doomed (s : MSig) (f : FlagsT) (n : BitVec 12) (x : Slot) : Bool := x.live && decide (s = x.s) && subsumes f n x.fl
/-- a removed slot -/
def Slot.kill (x : Slot) : Slot := { x with fl := { x.fl with hi := H_VALID } }

theorem kill_live (x : Slot) : x.kill.live = false := by
  have : decide ((H_VALID &&& H_LIVE : BitVec 3) ≠ 0) = false := by decide
  exact this
theorem kill_valid (x : Slot) : x.kill.valid = true := by
  have : decide ((H_VALID &&& H_VALID : BitVec 3) ≠ 0) = true := by decide
  exact this
theorem kill_not_doomed (s : MSig) (f : FlagsT) (n : BitVec 12) (x : Slot) : x.kill.doomed s f n = false := by
  simp [Slot.doomed, kill_live]

/-- relation between the table before and after (part of) the removal loop -/
structure KillRel (s : MSig) (f : FlagsT) (n : BitVec 12) (t t' : HTab) : Prop where
  siz : t'.siz = t.siz
  slot : ∀ (g : ℕ) (x : Slot), t.sols[g]? = some x → t'.sols[g]? = some x ∨ (x.doomed s f n = true ∧ t'.sols[g]? = some x.kill)
  count : t.nelem = (t.sols.filter Slot.live).length → t'.nelem = (t'.sols.filter Slot.live).length

theorem KillRel.refl (s : MSig) (f : FlagsT) (n : BitVec 12) (t : HTab) : KillRel s f n t t := ⟨rfl, fun _ _ h => Or.inl h, fun h => h⟩

theorem KillRel.trans {s : MSig} {f : FlagsT} {n : BitVec 12} {t t' t'' : HTab} (h : KillRel s f n t t') (h' : KillRel s f n t' t'') : KillRel s f n t t'' := by
  refine ⟨h'.siz.trans h.siz, ?_, fun hc => h'.count (h.count hc)⟩
  intro g x hx
  rcases h.slot g x hx with h1 | ⟨h1, h2⟩
  · exact h'.slot g x h1
  · rcases h'.slot g _ h2 with h3 | ⟨h3, _⟩
    · exact Or.inr ⟨h1, h3⟩
    · rw [kill_not_doomed] at h3; simp at h3

theorem killSlot_rel {s : MSig} {f : FlagsT} {n : BitVec 12} {t : HTab} {g : ℕ} {x : Slot} (hx : t.sols[g]? = some x) (hd : x.doomed s f n = true) :
    ∃ t', killSlot t g = some t' ∧ KillRel s f n t t' ∧ t'.sols[g]? = some x.kill := by
  have hgl : g < t.sols.length := (List.getElem?_eq_some_iff.1 hx).1
  have hget : ∀ k, (t.sols.set g x.kill)[k]? = if k = g then some x.kill else t.sols[k]? := by
    intro k
    rw [List.getElem?_set]
    by_cases h : k = g
    · subst h; simp [hgl]
    · rw [if_neg (fun h' => h h'.symm), if_neg h]
  refine ⟨⟨t.sols.set g x.kill, t.nelem - 1⟩, by rw [killSlot, hx]; rfl, ⟨by simp [HTab.siz], ?_, ?_⟩, ?_⟩
  · intro k y hy
    simp only [hget]
    split
    · rename_i h; subst h
      rw [hx] at hy; obtain rfl := Option.some.inj hy
      exact Or.inr ⟨hd, rfl⟩
    · exact Or.inl hy
  · intro hc
    have := live_count_set (y := x.kill) hx
    have hxl : x.live = true := by simp only [Slot.doomed, Bool.and_eq_true] at hd; exact hd.1.1
    rw [kill_live, hxl] at this
    simp at this ⊢
    omega
  · simp only [hget, if_true]

/-- what happens to `first` -/
def firstStep (b : Bool) (g : ℕ) (first : Option ℕ) : Option ℕ :=
  if b then (match first with | none => some g | some x => some x) else first

theorem killLoop_valid {s : MSig} {f : FlagsT} {n : BitVec 12} {h d : ℕ} {t : HTab} {g : ℕ} {first : Option ℕ} {l : Slot} (hl : t.sols[g]? = some l)
    (hval : l.valid = true) : killLoop s f n h d t g first =
      match (if l.doomed s f n then killSlot t g else some t) with
        | none => none
        | some t1 => if addmod g d t1.siz ≠ h then
            killLoop s f n h d t1 (addmod g d t1.siz) (firstStep (l.doomed s f n) g first)
          else some (t1, firstStep (l.doomed s f n) g first) := by
  rw [killLoop.eq_def, hl]
  simp only
  rw [if_pos hval]
  rfl

theorem killLoop_invalid {s : MSig} {f : FlagsT} {n : BitVec 12} {h d : ℕ} {t : HTab} {g : ℕ} {first : Option ℕ} {l : Slot} (hl : t.sols[g]? = some l)
    (hval : ¬ l.valid = true) : killLoop s f n h d t g first = some (t, first) := by
  rw [killLoop.eq_def, hl]
  simp only
  rw [if_neg hval]

theorem killLoop_spec {s : MSig} {f : FlagsT} {n : BitVec 12} (k : ℕ) : ∀ (t : HTab) (i : ℕ) (first : Option ℕ), t.siz.Prime → i + k = t.siz → 0 < k →
    ∃ t' first' m, killLoop s f n (chain t.siz s 0) (1 + s.s1 % (t.siz - 1)) t (chain t.siz s i) first = some (t', first') ∧
      KillRel s f n t t' ∧ i ≤ m ∧ m ≤ t.siz ∧
      (∀ j, i ≤ j → j < m → ∃ y, t'.sols[chain t.siz s j]? = some y ∧ y.doomed s f n = false) ∧
      (m < t.siz → ∃ y, t.sols[chain t.siz s m]? = some y ∧ y.valid = false) ∧
      (first' = none → first = none ∧ t' = t) ∧
      (∀ g, first' = some g → first = some g ∨ ∃ x, t.sols[g]? = some x ∧ x.doomed s f n = true ∧ t'.sols[g]? = some x.kill) := by
  induction k with
  | zero => intro t i first _ _ h; omega
  | succ k ih =>
    intro t i first hp hik _
    obtain ⟨l, hl⟩ := getElem?_chain hp.pos s i
    by_cases hval : l.valid = true
    · rw [killLoop_valid hl hval]
      -- one step
      have step : ∃ t1, (if l.doomed s f n then killSlot t (chain t.siz s i) else some t) = some t1 ∧ KillRel s f n t t1 ∧
          (∃ y, t1.sols[chain t.siz s i]? = some y ∧ y.doomed s f n = false) ∧
          (l.doomed s f n = false → t1 = t) ∧ (l.doomed s f n = true → t1.sols[chain t.siz s i]? = some l.kill) := by
        by_cases hd : l.doomed s f n = true
        · obtain ⟨t1, h1, h2, h3⟩ := killSlot_rel hl hd
          exact ⟨t1, by rw [if_pos hd]; exact h1, h2, ⟨_, h3, kill_not_doomed _ _ _ _⟩, fun h => by rw [hd] at h; simp at h, fun _ => h3⟩
        · exact ⟨t, by rw [if_neg hd], KillRel.refl _ _ _ _, ⟨l, hl, by simpa using hd⟩, fun _ => rfl, fun h => absurd h hd⟩
      obtain ⟨t1, e1, r1, n1, u1, w1⟩ := step
      rw [e1]
      simp only
      set first1 := firstStep (l.doomed s f n) (chain t.siz s i) first with hf1
      unfold firstStep at hf1
      have f1none : first1 = none → first = none ∧ t1 = t := by
        intro h
        rw [hf1] at h
        by_cases hd : l.doomed s f n = true
        · rw [if_pos hd] at h; cases first <;> simp at h
        · rw [if_neg hd] at h; exact ⟨h, u1 (by simpa using hd)⟩
      have f1some : ∀ g, first1 = some g → first = some g ∨ ∃ x, t.sols[g]? = some x ∧ x.doomed s f n = true ∧ t1.sols[g]? = some x.kill := by
        intro g h
        rw [hf1] at h
        by_cases hd : l.doomed s f n = true
        · rw [if_pos hd] at h
          cases first with
          | none => simp at h; subst h; exact Or.inr ⟨l, hl, hd, w1 hd⟩
          | some x => exact Or.inl h
        · rw [if_neg hd] at h; exact Or.inl h
      rw [r1.siz, addmod_chain hp.two_le]
      by_cases hk : k = 0
      · subst hk
        have : chain t.siz s (i + 1) = chain t.siz s 0 := by
          rw [show i + 1 = t.siz by omega]
          simp [chain]
        rw [this, if_neg (by simp)]
        refine ⟨t1, first1, i + 1, rfl, r1, by omega, by omega, ?_, fun h => by omega, f1none, f1some⟩
        intro j h1 h2
        have : j = i := by omega
        subst this; exact n1
      · have hne : chain t.siz s (i + 1) ≠ chain t.siz s 0 := by
          intro h
          have := chain_inj hp s (by omega) hp.pos h
          omega
        rw [if_pos hne]
        obtain ⟨t', first', m, a1, a2, a3, a4, a5, a6, a7, a8⟩ := ih t1 (i + 1) first1 (by rw [r1.siz]; exact hp) (by rw [r1.siz]; omega) (by omega)
        rw [r1.siz] at a1 a4 a5 a6
        refine ⟨t', first', m, a1, r1.trans a2, by omega, a4, ?_, ?_, ?_, ?_⟩
        · intro j h1 h2
          rcases Nat.eq_or_lt_of_le h1 with h | h
          · subst h
            obtain ⟨y, hy, hyd⟩ := n1
            rcases a2.slot _ y hy with h | ⟨h, _⟩
            · exact ⟨y, h, hyd⟩
            · rw [hyd] at h; simp at h
          · exact a5 j h h2
        · intro h
          obtain ⟨y, hy, hyv⟩ := a6 h
          obtain ⟨z, hz⟩ := getElem?_chain hp.pos s m (t := t)
          rcases r1.slot _ z hz with h' | ⟨_, h'⟩
          · rw [hy] at h'; obtain rfl := Option.some.inj h'; exact ⟨y, hz, hyv⟩
          · rw [hy] at h'; obtain rfl := Option.some.inj h'; rw [kill_valid] at hyv; simp at hyv
        · intro h
          obtain ⟨b1, b2⟩ := a7 h
          obtain ⟨c1, c2⟩ := f1none b1
          exact ⟨c1, b2.trans c2⟩
        · intro g h
          rcases a8 g h with h' | ⟨x, b1, b2, b3⟩
          · rcases f1some g h' with h'' | ⟨x, c1, c2, c3⟩
            · exact Or.inl h''
            · refine Or.inr ⟨x, c1, c2, ?_⟩
              rcases a2.slot g _ c3 with h | ⟨h, _⟩
              · exact h
              · rw [kill_not_doomed] at h; simp at h
          · have hgt : g < t.sols.length := by
              have := (List.getElem?_eq_some_iff.1 b1).1
              have e := r1.siz; unfold HTab.siz at e; omega
            rcases r1.slot g _ (List.getElem?_eq_getElem hgt) with h | ⟨h, h2⟩
            · rw [b1] at h; obtain rfl := Option.some.inj h
              exact Or.inr ⟨_, List.getElem?_eq_getElem hgt, b2, b3⟩
            · rw [b1] at h2; obtain rfl := Option.some.inj h2
              rw [kill_not_doomed] at b2; simp at b2
    · rw [killLoop_invalid hl hval]
      exact ⟨t, first, i, rfl, KillRel.refl _ _ _ _, le_refl _, by omega, fun j h1 h2 => by omega,
        fun _ => ⟨l, hl, by simpa using hval⟩, fun h => ⟨h, rfl⟩, fun g h => Or.inl h⟩

/-- after the loop of `htab_insert`: exactly the doomed slots have been killed -/
theorem killLoop_map {t : HTab} (hi : t.Inv) (s : MSig) (f : FlagsT) (n : BitVec 12) :
    ∃ t' first', killLoop s f n (chain t.siz s 0) (1 + s.s1 % (t.siz - 1)) t (chain t.siz s 0) none = some (t', first') ∧
      t'.sols = t.sols.map (fun x => if x.doomed s f n then x.kill else x) ∧
      t'.nelem = (t'.sols.filter Slot.live).length ∧
      (first' = none → ∀ x ∈ t.sols, x.doomed s f n = false) ∧
      (∀ g, first' = some g → ∃ x, t.sols[g]? = some x ∧ x.doomed s f n = true) := by
  have hp := hi.prime
  obtain ⟨t', first', m, a1, a2, a3, a4, a5, a6, a7, a8⟩ := killLoop_spec (s := s) (f := f) (n := n) t.siz t 0 none hp (by omega) hp.pos
  have hlen : t'.sols.length = t.sols.length := a2.siz
  have hdead : ∀ (g : ℕ) (x : Slot), t.sols[g]? = some x → x.doomed s f n = true → t'.sols[g]? = some x.kill := by
    intro g x hx hd
    rcases a2.slot g x hx with h | ⟨_, h⟩
    · exfalso
      simp only [Slot.doomed, Bool.and_eq_true, decide_eq_true_eq] at hd
      obtain ⟨j, hj, hjx⟩ := seen_of_live hi a4 a6 (List.mem_of_getElem? hx) hd.1.1 hd.1.2.symm
      obtain ⟨i, hi1, hi2, hi3⟩ := hi.reach g x hx hd.1.1
      rw [← hd.1.2] at hi2 hi3
      -- the slot at g is on the chain before m
      have him : i < m := by
        by_contra hcon
        have hmlt : m < t.siz := by omega
        obtain ⟨y, hy, hyv⟩ := a6 hmlt
        rcases Nat.lt_or_ge m i with h' | h'
        · obtain ⟨y', hy', hv'⟩ := hi3 m h'
          rw [hy] at hy'; obtain rfl := Option.some.inj hy'
          rw [hyv] at hv'; simp at hv'
        · have : m = i := by omega
          subst this
          rw [hi2, hx] at hy
          obtain rfl := Option.some.inj hy
          rw [hi.live_valid x (List.mem_of_getElem? hx) hd.1.1] at hyv; simp at hyv
      obtain ⟨y, hy, hyd⟩ := a5 i (by omega) him
      rw [hi2, h] at hy
      obtain rfl := Option.some.inj hy
      simp [Slot.doomed, hd] at hyd
    · exact h
  refine ⟨t', first', a1, ?_, a2.count hi.count, ?_, ?_⟩
  · apply List.ext_getElem?
    intro g
    rw [List.getElem?_map]
    cases hx : t.sols[g]? with
    | none =>
      rw [List.getElem?_eq_none_iff] at hx
      rw [List.getElem?_eq_none (by omega)]; rfl
    | some x =>
      simp only [Option.map_some]
      split
      · rename_i hd; exact hdead g x hx hd
      · rename_i hd
        rcases a2.slot g x hx with h | ⟨h, _⟩
        · exact h
        · exact absurd h hd
  · intro h x hx
    obtain ⟨_, rfl⟩ := a7 h
    by_contra hd
    have hd : x.doomed s f n = true := by simpa using hd
    obtain ⟨g, hg⟩ := List.getElem?_of_mem hx
    have := hdead g x hg hd
    rw [hg] at this
    have h2 := congrArg (fun y => y.map (Slot.doomed s f n)) this
    simp only [Option.map_some, hd, kill_not_doomed] at h2
    simp at h2
  · intro g h
    rcases a8 g h with h' | ⟨x, b1, b2, _⟩
    · simp at h'
    · exact ⟨x, b1, b2⟩

/-- entries removed by an insertion -/
def Entry.doomed (s : MSig) (f : FlagsT) (n : BitVec 12) (e : Entry) : Bool :=
  decide (s = e.s) && subsumes f n ⟨e.l, e.u, e.tli, 0⟩

theorem subsumes_entry (f : FlagsT) (n : BitVec 12) (x : Slot) : subsumes f n ⟨x.entry.l, x.entry.u, x.entry.tli, 0⟩ = subsumes f n x.fl := rfl

theorem contents_map_kill (L : List Slot) (s : MSig) (f : FlagsT) (n : BitVec 12) :
    (((L.map (fun x => if x.doomed s f n then x.kill else x)).filter Slot.live).map Slot.entry : List Entry) =
      ((L.filter Slot.live).map Slot.entry).filter fun e => !(e.doomed s f n) := by
  induction L with
  | nil => rfl
  | cons x L ih =>
    rw [List.map_cons]
    by_cases hl : x.live = true
    · by_cases hd : x.doomed s f n = true
      · rw [if_pos hd, List.filter_cons_of_neg (by rw [kill_live]; simp), ih, List.filter_cons_of_pos hl, List.map_cons, List.filter_cons_of_neg]
        simp only [Slot.doomed, Bool.and_eq_true, decide_eq_true_eq] at hd
        simp only [Entry.doomed, subsumes_entry, hd.2, Bool.and_true, Bool.not_eq_true', Bool.not_eq_false', decide_eq_true_eq]
        simp [Slot.entry, hd.1.2]
      · rw [if_neg hd, List.filter_cons_of_pos hl, List.map_cons, ih, List.filter_cons_of_pos hl, List.map_cons, List.filter_cons_of_pos]
        simp only [Slot.doomed, hl, Bool.true_and] at hd
        simp only [Entry.doomed, subsumes_entry]
        by_cases hs : s = x.s <;> simp_all [Slot.entry]
    · have hd : ¬ x.doomed s f n = true := by simp [Slot.doomed, hl]
      rw [if_neg hd, List.filter_cons_of_neg hl, ih, List.filter_cons_of_neg hl]

theorem htabInsert_spec {t : HTab} (hi : t.Inv) (hn : t.nelem ≤ 2 ^ 60) (s : MSig) (f : FlagsT) (n : BitVec 12) :
    ∃ t', htabInsert t s f n = some t' ∧ t'.Inv ∧
      t'.contents = mkEntry s f n ::ₘ t.contents.filter (fun e => ¬ e.doomed s f n = true) ∧ t'.nelem ≤ t.nelem + 1 := by
  have hp := hi.prime
  obtain ⟨t1, first, b1, b2, b3, b4, b5⟩ := killLoop_map hi s f n
  have hsiz : t1.siz = t.siz := by unfold HTab.siz; rw [b2]; simp
  have hget : ∀ (g : ℕ) (x : Slot), t.sols[g]? = some x → t1.sols[g]? = some (if x.doomed s f n then x.kill else x) := by
    intro g x hx; rw [b2, List.getElem?_map, hx]; rfl
  have hvalid : ∀ (g : ℕ) (x : Slot), t.sols[g]? = some x → x.valid = true → ∃ y : Slot, t1.sols[g]? = some y ∧ y.valid = true := by
    intro g x hx hv
    refine ⟨_, hget g x hx, ?_⟩
    split
    · exact kill_valid x
    · exact hv
  have hlv : ∀ x ∈ t1.sols, x.live = true → x.valid = true := by
    intro x hx hl
    rw [b2] at hx
    obtain ⟨y, hy, rfl⟩ := List.mem_map.1 hx
    by_cases hd : y.doomed s f n = true
    · rw [if_pos hd]; exact kill_valid y
    · rw [if_neg hd] at hl ⊢; exact hi.live_valid y hy hl
  have hre : ∀ (g : ℕ) (x : Slot), t1.sols[g]? = some x → x.live = true →
      ∃ i < t1.siz, chain t1.siz x.s i = g ∧ ∀ j < i, ∃ y, t1.sols[chain t1.siz x.s j]? = some y ∧ y.valid = true := by
    intro g x hx hl
    rw [b2, List.getElem?_map] at hx
    obtain ⟨y, hy, rfl⟩ := Option.map_eq_some_iff.1 hx
    rw [hsiz]
    by_cases hd : y.doomed s f n = true
    · rw [if_pos hd, kill_live] at hl; simp at hl
    · rw [if_neg hd] at hl ⊢
      obtain ⟨i, i1, i2, i3⟩ := hi.reach g y hy hl
      refine ⟨i, i1, i2, ?_⟩
      intro j hj
      obtain ⟨z, hz, hzv⟩ := i3 j hj
      exact hvalid _ z hz hzv
  have hcont : t1.contents = t.contents.filter (fun e => ¬ e.doomed s f n = true) := by
    unfold HTab.contents
    rw [b2, contents_map_kill, Multiset.filter_coe]
    congr 2
    funext e
    simp
  have hle : t1.nelem ≤ t.nelem := by
    have h1 : t1.nelem = Multiset.card t1.contents := by rw [b3]; simp [HTab.contents]
    have h2 : t.nelem = Multiset.card t.contents := by rw [hi.count]; simp [HTab.contents]
    rw [h1, h2, hcont]
    exact Multiset.card_le_card (Multiset.filter_le _ _)
  unfold htabInsert
  rw [h1_eq hp.two_le, h2_eq hp.two_le]
  simp only [Option.bind_eq_bind, Option.bind_some]
  rw [b1]
  simp only [Option.bind_some]
  cases first with
  | some g =>
    simp only
    obtain ⟨x, hx, hd⟩ := b5 g rfl
    have hd' := hd
    simp only [Slot.doomed, Bool.and_eq_true, decide_eq_true_eq] at hd'
    obtain ⟨m, m1, m2, m3⟩ := hi.reach g x hx hd'.1.1
    rw [← hd'.1.2] at m2 m3
    have hx1 := hget g x hx
    rw [if_pos hd] at hx1
    -- strictly fewer live slots, hence room
    have hlt : t1.nelem < t.nelem := by
      have h1 : t1.nelem = Multiset.card t1.contents := by rw [b3]; simp [HTab.contents]
      have h2 : t.nelem = Multiset.card t.contents := by rw [hi.count]; simp [HTab.contents]
      rw [h1, h2, hcont]
      apply Multiset.card_lt_card
      refine lt_of_le_of_ne (Multiset.filter_le _ _) ?_
      intro heq
      rw [Multiset.filter_eq_self] at heq
      have hmem : x.entry ∈ t.contents := by
        unfold HTab.contents
        rw [Multiset.mem_coe]
        exact List.mem_map.2 ⟨x, List.mem_filter.2 ⟨List.mem_of_getElem? hx, hd'.1.1⟩, rfl⟩
      apply heq _ hmem
      simp only [Entry.doomed, subsumes_entry, hd'.2, Bool.and_true, decide_eq_true_eq]
      exact hd'.1.2
    have hroom := hi.room
    obtain ⟨t', c1, c2, c3, c4, c5⟩ := fillSlot_spec (t := t1) (s := s) (f := f) (n := n) (m := m) (x := x.kill) (by rw [hsiz]; exact hp) b3 (by rw [hsiz]; omega) hlv hre
      (by rw [hsiz]; exact m1) (by rw [hsiz, m2]; exact hx1) (kill_live x) (by
        intro j hj
        rw [hsiz]
        obtain ⟨z, hz, hzv⟩ := m3 j hj
        exact hvalid _ z hz hzv)
    rw [hsiz, m2] at c1
    exact ⟨t', c1, c2, by rw [c3, hcont], by omega⟩
  | none =>
    simp only
    have hi1 : t1.Inv := ⟨by rw [hsiz]; exact hp, b3, by rw [hsiz]; have := hi.room; omega, hlv, hre⟩
    obtain ⟨t2, c1, c2, c3, c4, c5⟩ := hgrow_spec hi1 (by omega)
    rw [c1]
    simp only [Option.bind_some]
    obtain ⟨t', e1, e2, e3, e4, e5⟩ := hinsert0_spec c2 c4 s f n
    exact ⟨t', e1, e2, by rw [e3, c3, hcont], by omega⟩

end FFTW.Planner
