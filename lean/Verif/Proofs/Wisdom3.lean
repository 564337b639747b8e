import Verif.Proofs.Wisdom2
import Verif.Spec.WisdomFile
import Verif.Proofs.Planner3
import Verif.Props.Htab

/-!
# What an import does to the tables
-/

namespace FFTW.Planner
open FFTW.Scan WisdomSpec

theorem htabLookup_ans {t : HTab} (hi : t.Inv) (s : MSig) (f : FlagsT) :
    ∃ r, htabLookup t s f = some r ∧ (r.isSome = true ↔ ∃ x ∈ t.contents, Answers x s f.l f.u f.tli) := by
  obtain ⟨r, k1, k2, k3⟩ := htabLookup_spec hi s f
  refine ⟨r, k1, ?_, ?_⟩
  · intro hr
    obtain ⟨x, rfl⟩ := Option.isSome_iff_exists.1 hr
    obtain ⟨x1, x2, _⟩ := k2 x rfl
    obtain ⟨x2, x3⟩ := cand_iff.1 x2
    exact ⟨_, mem_contents.2 ⟨x, x1, x2, rfl⟩, x3⟩
  · rintro ⟨e, he, ha⟩
    cases r with
    | some x => rfl
    | none =>
      obtain ⟨x, x1, x2, x3⟩ := mem_contents.1 he
      exact absurd (cand_iff.2 ⟨x2, by rw [x3]; exact ha⟩) (k3 rfl x x1)

theorem hlookup_ans {st : PSt} (hb : st.blessed.Inv) (hu : st.unblessed.Inv) (s : MSig) (f : FlagsT) :
    ∃ r, hlookup st s f = .ok r ∧ (r.isSome = true ↔ ∃ x, (x ∈ st.blessed.contents ∨ x ∈ st.unblessed.contents) ∧ Answers x s f.l f.u f.tli) := by
  obtain ⟨r, h1, h2⟩ := htabLookup_ans hb s f
  obtain ⟨q, k1, k2⟩ := htabLookup_ans hu s f
  unfold hlookup
  rw [h1, k1]
  cases r with
  | some x =>
    refine ⟨some x, rfl, ?_⟩
    obtain ⟨y, hy, ha⟩ := h2.1 rfl
    exact ⟨fun _ => ⟨y, Or.inl hy, ha⟩, fun _ => rfl⟩
  | none =>
    refine ⟨q, rfl, ?_⟩
    rw [k2]
    constructor
    · rintro ⟨x, hx, ha⟩; exact ⟨x, Or.inr hx, ha⟩
    · rintro ⟨x, hx | hx, ha⟩
      · exact absurd (h2.2 ⟨x, hx, ha⟩) (by simp)
      · exact ⟨x, hx, ha⟩

/-- the stored part of an import line -/
def lookInsert (st : PSt) (sig : MSig) (flags : FlagsT) (n : BitVec 12) : Res (Option PSt) := do
  let r ← hlookup st sig flags
  if r.isNone then do
    let st ← hinsert st sig flags n
    return some st
  else return some st

theorem lookInsert_spec {env : Env} {st : PSt} (ht : TInv env st) (e : Entry) (hk : e.slvndx = INFEASIBLE_SLVNDX ∨ e.slvndx.toNat < env.slvdescs.length) :
    (lookInsert st e.s ⟨e.l, e.u, e.tli, BLESSING⟩ e.slvndx = .error .mem ∧ 2 ^ 31 ≤ st.blessed.nelem) ∨
    ∃ st', lookInsert st e.s ⟨e.l, e.u, e.tli, BLESSING⟩ e.slvndx = .ok (some st') ∧ TInv env st' ∧
      (∀ x, x ∈ st'.blessed.contents ↔ x ∈ learn {x | x ∈ st.unblessed.contents} {x | x ∈ st.blessed.contents} e) ∧ st'.unblessed = st.unblessed ∧
      st'.blessed.nelem ≤ st.blessed.nelem + 1 := by
  obtain ⟨r, h1, h2⟩ := hlookup_ans ht.b ht.u e.s ⟨e.l, e.u, e.tli, BLESSING⟩
  unfold lookInsert
  rw [h1]
  simp only [bind, Except.bind]
  cases r with
  | some y =>
    right
    refine ⟨st, rfl, ht, ?_, rfl, by omega⟩
    intro x
    unfold learn
    rw [if_pos (by exact h2.1 rfl)]
    rfl
  | none =>
    simp only [Option.isNone_none, if_true]
    unfold hinsert
    rw [if_pos (by simp only [bliss]; decide)]
    by_cases hm : st.blessed.nelem ≥ 2 ^ 31
    · left
      rw [if_pos hm]
      exact ⟨rfl, hm⟩
    · right
      rw [if_neg hm]
      obtain ⟨t', k1, k2, k3, k4⟩ := htabInsert_spec ht.b (by omega) e.s ⟨e.l, e.u, e.tli, BLESSING⟩ e.slvndx
      rw [k1]
      have hc : ∀ x, x ∈ t'.contents ↔ x = e ∨ x ∈ st.blessed.contents ∧ ¬ Answers e x.s x.l x.u x.tli := by
        intro x
        rw [k3, Multiset.mem_cons, Multiset.mem_filter, ← doomed_iff]
        exact Iff.rfl
      refine ⟨{ st with blessed := t' }, rfl, ⟨k2, ht.u, ?_, ht.uk⟩, ?_, rfl, k4⟩
      · intro x hx
        rcases (hc x).1 hx with rfl | ⟨hx, _⟩
        · exact hk
        · exact ht.bk x hx
      · intro x
        unfold learn
        rw [if_neg (by intro h; have := h2.2 h; simp at this)]
        exact hc x

theorem slookupLoop_spec (nam : List Int) (id : Int) (L : List SlvDesc) : ∀ i j, slookupLoop nam id L i = some j →
    i ≤ j ∧ ∃ d, L[j - i]? = some d ∧ cstr d.regNam = nam ∧ d.regId = id := by
  induction L with
  | nil => intro i j h; simp [slookupLoop] at h
  | cons a L ih =>
    intro i j h
    rw [slookupLoop] at h
    split at h
    · rename_i hc
      simp only [Option.some.injEq] at h
      subst h
      exact ⟨le_rfl, a, by simp, hc.2.2, hc.1⟩
    · obtain ⟨h1, d, h2, h3⟩ := ih _ _ h
      refine ⟨by omega, d, ?_, h3⟩
      rw [show j - i = (j - (i + 1)) + 1 by omega, List.getElem?_cons_succ]
      exact h2

theorem slookup_some {env : Env} {nam : List Int} {id : Int} (h : slookup env nam id ≠ INFEASIBLE_SLVNDX.toNat) :
    ∃ d, env.slvdescs[slookup env nam id]? = some d ∧ cstr d.regNam = nam ∧ d.regId = id := by
  unfold slookup at *
  cases hs : slookupLoop nam id env.slvdescs 0 with
  | none => rw [hs] at h; simp at h
  | some j =>
    rw [Option.getD_some]
    obtain ⟨_, d, h2, h3⟩ := slookupLoop_spec _ _ _ _ _ hs
    exact ⟨d, by simpa using h2, h3⟩

theorem importEntry_spec {env : Env} {st st' : PSt} {buf : List Int} {id : Int} {l u tli : Nat} {sig : MSig} (ht : TInv env st)
    (hl : env.slvdescs.length < 0xFFF)
    (h : importEntry env st buf id l u tli sig = .ok (some st')) :
    ∃ e : Entry, e.s = sig ∧ e.l.toNat = l ∧ e.u.toNat = u ∧ e.tli.toNat = tli ∧ Names env e (upToNul buf) id ∧
      (e.slvndx ≠ 0xFFF → e.tli = 0) ∧ TInv env st' ∧ st'.unblessed = st.unblessed ∧
      ∀ x, x ∈ st'.blessed.contents ↔ x ∈ learn {x | x ∈ st.unblessed.contents} {x | x ∈ st.blessed.contents} e := by
  unfold importEntry at h
  simp only at h
  generalize hq : (if upToNul buf = stimeout ∧ id = 0 then some INFEASIBLE_SLVNDX.toNat
    else if tli ≠ 0 then none else if slookup env (upToNul buf) id = INFEASIBLE_SLVNDX.toNat then none else some (slookup env (upToNul buf) id) : Option Nat) = q at h
  have hNames : ∀ i, q = some i → i < 4096 ∧ (∀ e : Entry, e.slvndx = BitVec.ofNat 12 i → Names env e (upToNul buf) id) ∧
      (BitVec.ofNat 12 i = INFEASIBLE_SLVNDX ∨ i < env.slvdescs.length) ∧ (BitVec.ofNat 12 i ≠ (0xFFF : BitVec 12) → tli = 0) := by
    intro i hi
    rw [hi] at hq
    split at hq
    · rename_i hc
      simp only [Option.some.injEq] at hq
      subst hq
      exact ⟨by decide, fun e he => Or.inl ⟨he, hc.1, hc.2⟩, Or.inl (by decide), fun h => absurd (by decide) h⟩
    · split at hq
      · simp at hq
      · rename_i h2
        split at hq
        · simp at hq
        · rename_i hs
          simp only [Option.some.injEq] at hq
          obtain ⟨d, h1, h3, h4⟩ := slookup_some hs
          rw [hq] at h1
          have hlt : i < env.slvdescs.length := (List.getElem?_eq_some_iff.1 h1).1
          refine ⟨by omega, fun e he => Or.inr ⟨d, ?_, h3, h4⟩, Or.inr hlt, fun _ => by simpa using h2⟩
          rw [he, BitVec.toNat_ofNat, Nat.mod_eq_of_lt (by omega)]
          exact h1
  split at h
  · simp at h
  · rename_i i
    obtain ⟨n1, n2, n3, n4⟩ := hNames i rfl
    split at h
    · simp at h
    · rename_i hck
      push Not at hck
      have h' : lookInsert st sig ⟨BitVec.ofNat 20 l, BitVec.ofNat 20 u, BitVec.ofNat 9 tli, BLESSING⟩ (BitVec.ofNat 12 i) = .ok (some st') := h
      let e : Entry := ⟨sig, BitVec.ofNat 20 l, BitVec.ofNat 20 u, BitVec.ofNat 9 tli, BitVec.ofNat 12 i⟩
      rcases lookInsert_spec ht e (n3.imp (fun h => h) fun h => by
        show (BitVec.ofNat 12 i).toNat < _
        rw [BitVec.toNat_ofNat]
        exact lt_of_le_of_lt (Nat.mod_le _ _) h) with ⟨h1, _⟩ | ⟨st1, h1, h2, h3, h4, _⟩
      · rw [show lookInsert st e.s ⟨e.l, e.u, e.tli, BLESSING⟩ e.slvndx = _ from h'] at h1
        simp at h1
      · rw [show lookInsert st e.s ⟨e.l, e.u, e.tli, BLESSING⟩ e.slvndx = _ from h'] at h1
        simp only [Except.ok.injEq, Option.some.injEq] at h1
        subst h1
        refine ⟨e, rfl, hck.1, hck.2.1, hck.2.2, n2 e rfl, ?_, h2, h4, h3⟩
        intro hne
        have := n4 hne
        show BitVec.ofNat 9 tli = 0
        rw [this]
        rfl

theorem fits_blank {fmt : List Char} {maxs bl t : List Int} {vs : List Scan.Res} (hb : Spec.Blank bl) (h : Spec.Fits ('(' :: fmt) maxs t vs) :
    Spec.Fits ('(' :: fmt) maxs (bl ++ t) vs := by
  cases h with
  | blank h => exact absurd h (by decide)
  | @paren _ _ _ bl' t' _ h1 h2 h3 =>
    rw [← List.append_assoc]
    refine .paren h1 ?_ h3
    intro c hc
    rcases List.mem_append.1 hc with h | h
    · exact hb c h
    · exact h2 c h
  | lit h1 h2 => exact .paren (Or.inl rfl) hb h2

theorem vscan_close_fail {sc sc1 : Scanner} {vs : List Scan.Res} (hc : Clean sc) (h : vscan sc ")".toList [] = some (false, vs, sc1)) :
    ∃ bl, Spec.Blank bl ∧ sc.view = bl ++ sc1.view := by
  obtain ⟨bl, b1, b2⟩ := eatBlanks_text _ sc le_rfl hc
  have hc' : Clean (eatBlanks sc) := clean_of_suffix hc b2
  rw [show ")".toList = [')'] from rfl, vscan] at h
  · simp only [show isspace (Print.chr ')') = false by decide, Bool.false_eq_true, false_or, if_false] at h
    rw [if_pos (Or.inr trivial)] at h
    split at h
    · simp only [Option.pure_def, Option.some.injEq, Prod.mk.injEq, true_and] at h
      obtain ⟨rfl, rfl⟩ := h
      exact ⟨bl, b1, by rw [unget_view hc']; exact b2⟩
    · simp [vscan] at h
  all_goals simp

theorem importLoop_spec {env : Env} (hl : env.slvdescs.length < 0xFFF) {st st' : PSt} {sc sc' : Scanner} (ht : TInv env st) (hc : Clean sc)
    (h : importLoop env st sc = some (.ok (true, st', sc'))) :
    ∃ (lines : List (List Int × Entry)) (fin : List Int), sc.view = (lines.map Prod.fst).flatten ++ (fin ++ sc'.view) ∧ Spec.Fits ")".toList [] fin [] ∧
      (∀ p ∈ lines, LineSays env p.1 p.2) ∧ TInv env st' ∧ st'.unblessed = st.unblessed ∧
      ∀ x, x ∈ st'.blessed.contents ↔ x ∈ learnAll {x | x ∈ st.unblessed.contents} {x | x ∈ st.blessed.contents} (lines.map Prod.snd) := by
  have := importLoop.partial_correctness env (fun st sc r => TInv env st → Clean sc → ∀ st' sc', r = .ok (true, st', sc') → 
    ∃ (lines : List (List Int × Entry)) (fin : List Int), sc.view = (lines.map Prod.fst).flatten ++ (fin ++ sc'.view) ∧ Spec.Fits ")".toList [] fin [] ∧
      (∀ p ∈ lines, LineSays env p.1 p.2) ∧ TInv env st' ∧ st'.unblessed = st.unblessed ∧
      ∀ x, x ∈ st'.blessed.contents ↔ x ∈ learnAll {x | x ∈ st.unblessed.contents} {x | x ∈ st.blessed.contents} (lines.map Prod.snd)) (by
    intro f ih st sc r h ht hc st' sc' hr
    subst hr
    split at h
    · simp at h
    · rename_i vs sc1 h1
      simp only [Option.some.injEq, Except.ok.injEq, Prod.mk.injEq, true_and] at h
      obtain ⟨rfl, rfl⟩ := h
      obtain ⟨t, k1, k2⟩ := vscan_text _ _ _ _ _ hc h1
      have hv : vs = [] := by
        cases k2 with
        | blank h => exact absurd h (by decide)
        | paren _ _ k => cases k; rfl
        | lit _ k => cases k; rfl
      subst hv
      exact ⟨[], t, by simpa using k1, k2, by simp, ht, rfl, fun x => Iff.rfl⟩
    · rename_i vs sc1 h1
      obtain ⟨bl, b1, b2⟩ := vscan_close_fail hc h1
      have hc1 : Clean sc1 := clean_of_suffix hc b2
      split at h
      · simp at h
      · rename_i buf regId l u tli s0 s1 s2 s3 sc2 h2
        obtain ⟨t, k1, k2⟩ := vscan_text _ _ _ _ _ hc1 h2
        split at h
        · simp at h
        · simp at h
        · rename_i st1 h3
          obtain ⟨e, e1, e2, e3, e4, e5, e6, e7, e8, e9⟩ := importEntry_spec ht hl h3
          obtain ⟨lines, fin, f1, f2, f3, f4, f5, f6⟩ := ih _ _ _ h e7 (clean_of_suffix hc1 k1) _ _ rfl
          refine ⟨(bl ++ t, e) :: lines, fin, ?_, f2, ?_, f4, f5.trans e8, ?_⟩
          · simp only [List.map_cons, List.flatten_cons, List.append_assoc]
            rw [← List.append_assoc, ← List.append_assoc, List.append_assoc, List.append_assoc, ← f1, b2, k1]
          · intro p hp
            rcases List.mem_cons.1 hp with rfl | hp
            · refine ⟨buf, regId, l, u, tli, ?_, ?_, ?_, ?_, e6, e5⟩
              · rw [e1]
                exact fits_blank b1 k2
              · rw [e2, asUnsigned]; omega
              · rw [e3, asUnsigned]; omega
              · rw [e4, asUnsigned]; omega
            · exact f3 p hp
          · intro x
            rw [f6, List.map_cons, learnAll, learnAll, List.foldl_cons, e8]
            rw [show {x | x ∈ st1.blessed.contents} = learn {x | x ∈ st.unblessed.contents} {x | x ∈ st.blessed.contents} e from Set.ext e9]
      · simp at h
      · simp at h) st sc _ h
  exact this ht hc _ _ rfl
end FFTW.Planner
