import Verif.Model.F77
import Verif.Props.Wisdom

/-!
# C61: wisdom through the Fortran interface
-/

namespace FFTW.F77
open FFTW.Planner FFTW.Scan FFTW.Print WisdomSpec FFTW.Scan.Spec

/-- what a Fortran routine that collects characters has collected -/
theorem foldl_collect (text acc : List Int) : text.foldl (fun d c => d ++ [c]) acc = acc ++ text := by
  induction text generalizing acc with
  | nil => simp
  | cons c l ih => rw [List.foldl_cons, ih]; simp

/-- **C61**: a Fortran program that collects the characters `dfftw_export_wisdom` passes to its routine, and later (perhaps in another run, with another routine) delivers them one by one and then
negative numbers to `dfftw_import_wisdom`, is told that the import succeeded and has exactly the wisdom that was exported; nothing else changes. -/
theorem C61_wisdom_roundtrip (env : Env) (hr : Registry env) (hlen : (configMessage 8 (registered env)).length < 2 ^ 29)
    (st0 st : PSt) (h0 : ∀ x ∈ st0.blessed.contents, Exportable env x)
    (hanti : (savedFacts st0).Pairwise fun a b => ¬ Answers a b.s b.l b.u b.tli ∧ ¬ Answers b a.s a.l a.u a.tli)
    (ht : TInv env st) (hb : st.blessed.contents = 0) (hu : st.unblessed.contents = 0) (hsz : (savedFacts st0).length ≤ 2 ^ 31) :
    ∃ codes st', exportWisdom env st0 (fun c l => l ++ [c]) [] = some codes ∧ (∀ c ∈ codes, 0 < c ∧ c < 256) ∧
      importWisdom env st codes = some (.ok (true, st')) ∧
      st' = { st with blessed := st'.blessed } ∧ ∀ e, e ∈ st'.blessed.contents ↔ e ∈ st0.blessed.contents := by
  obtain ⟨text, s, st', h1, h2, _, h4, h5, h6⟩ := C19_same_facts env hr hlen st0 st h0 hanti ht hb hu hsz
  have hpos : ∀ c ∈ text, 0 < c ∧ c < 256 := by
    obtain ⟨m, hm, _⟩ := C21_signature_is_md5_of_configuration env hlen
    obtain ⟨t, t1, t2, _⟩ := export_import hr hm st0 h0
    obtain rfl : t = text := Option.some.inj (t1.symm.trans h1)
    intro c hc
    have := t2 c hc
    omega
  refine ⟨text, st', ?_, hpos, ?_, h5, h6⟩
  · rw [exportWisdom, h1, Option.map_some, foldl_collect, List.nil_append]
  · rw [importWisdom, ← h4]
    congr 2
    refine (List.map_congr_left fun c hc => ?_).trans (List.map_id _)
    rw [readChar, if_neg (by have := hpos c hc; omega)]
    rfl

/-- **C61**: if `isuccess` is 0, nothing has changed, whatever the Fortran routine delivered -/
theorem C61_failed_import (env : Env) (st st' : PSt) (codes : List Int) (h : importWisdom env st codes = some (.ok (false, st'))) : st' = st :=
  C20_failed_import_changes_nothing env st st' _ h

/-- **C61**: an import ends, whatever the Fortran routine delivers -/
theorem C61_import_ends (env : Env) (st : PSt) (codes : List Int) : importWisdom env st codes ≠ none := C46_import_terminates env st _

/-- **C61**: any negative number ends the input, as `EOF` does: two Fortran routines that differ only in the negative numbers they deliver have the same effect -/
theorem C61_negative_is_eof (env : Env) (st : PSt) (codes codes' : List Int) (h : List.Forall₂ (fun c c' => c = c' ∨ c < 0 ∧ c' < 0) codes codes') :
    importWisdom env st codes = importWisdom env st codes' := by
  unfold importWisdom
  congr 2
  induction h with
  | nil => rfl
  | cons h _ ih =>
    rw [List.map_cons, List.map_cons, ih]
    rcases h with rfl | ⟨h1, h2⟩
    · rfl
    · rw [readChar, readChar, if_pos h1, if_pos h2]

/-- all hypotheses of `C61_wisdom_roundtrip` are met: the three facts of Props/Wisdom -/
example : ∃ (st0 : PSt) (codes : List Int) (st st' : PSt), (∀ e, e ∈ st0.blessed.contents ↔ e ∈ wFacts) ∧ st.blessed.contents = 0 ∧
    exportWisdom wEnv st0 (fun c l => l ++ [c]) [] = some codes ∧ importWisdom wEnv st codes = some (.ok (true, st')) ∧ ∀ e, e ∈ st'.blessed.contents ↔ e ∈ wFacts := by
  obtain ⟨st0, st, h1, h2, _, h4, h5, _, h7, h8, h9, h10, h11⟩ := wSt_exists
  obtain ⟨codes, st', k1, _, k3, _, k5⟩ := C61_wisdom_roundtrip wEnv h1 h2 st0 st h5 h7 h8 h9 h10 h11
  exact ⟨st0, codes, st, st', h4, h9, k1, k3, fun e => (k5 e).trans (h4 e)⟩

end FFTW.F77
