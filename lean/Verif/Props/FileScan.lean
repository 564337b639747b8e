import Verif.Model.FileScan
import Verif.Props.Wisdom

/-!
# C19, C20, C46 for wisdom in files
-/

namespace FFTW.Planner
open FFTW.Scan FFTW.Print WisdomSpec FFTW.Scan.Spec

/-- the bytes of the file that have not been delivered yet -/
def FileScanner.pending (s : FileScanner) : List UInt8 := (s.buf.take s.bufw).drop s.bufr ++ s.pieces.flatten

/-- the buffer is within its bounds, and `fread` reports the end only at the end -/
structure FileScanner.Good (s : FileScanner) : Prop where
  buf : s.buf.length = 256
  rw : s.bufr ≤ s.bufw
  bw : s.bufw ≤ 256
  some : ∀ p ∈ s.pieces, p ≠ []

theorem fread_spec {ps : List (List UInt8)} (h : ∀ p ∈ ps, p ≠ []) :
    (fread 256 ps).1 ++ (fread 256 ps).2.flatten = ps.flatten ∧ (fread 256 ps).1.length ≤ 256 ∧ (∀ p ∈ (fread 256 ps).2, p ≠ []) ∧ ((fread 256 ps).1 = [] → ps = []) := by
  rcases ps with _ | ⟨p, ps⟩
  · simp [fread]
  · have hp := h p (List.mem_cons_self ..)
    have hps := fun q hq => h q (List.mem_cons_of_mem _ hq)
    refine ⟨?_, by simp [fread], ?_, ?_⟩
    · simp only [fread]
      split
      · rw [List.flatten_cons, ← List.append_assoc, List.take_append_drop, List.flatten_cons]
      · rw [List.take_of_length_le (by omega), List.flatten_cons]
    · simp only [fread]
      intro q hq
      split at hq
      · rcases List.mem_cons.1 hq with rfl | hq
        · intro h0
          have := congrArg List.length h0
          simp at this
          omega
        · exact hps q hq
      · exact hps q hq
    · simp only [fread, List.take_eq_nil_iff]
      rintro (h | h)
      · omega
      · exact absurd h hp

theorem getchr_step {s : FileScanner} (g : s.Good) : ∃ s', getchrFile s = some (match s.pending with | [] => EOF | c :: _ => signedChar c, s') ∧ s'.Good ∧ s'.pending = s.pending.tail := by
  have deliver : ∀ t : FileScanner, t.Good → t.bufr < t.bufw → ∃ c l, t.pending = c :: l ∧ t.buf[t.bufr]? = some c ∧
      ({ t with bufr := t.bufr + 1 } : FileScanner).Good ∧ ({ t with bufr := t.bufr + 1 } : FileScanner).pending = l := by
    intro t g h
    have h1 := g.buf
    have h2 := g.bw
    have hlt : t.bufr < t.buf.length := by omega
    refine ⟨t.buf[t.bufr], (t.buf.take t.bufw).drop (t.bufr + 1) ++ t.pieces.flatten, ?_, List.getElem?_eq_getElem hlt, ⟨g.buf, h, g.bw, g.some⟩, rfl⟩
    unfold FileScanner.pending
    rw [List.drop_eq_getElem_cons (by rw [List.length_take]; omega), List.getElem_take]
    rfl
  by_cases h : s.bufr ≥ s.bufw
  · obtain ⟨f1, f2, f3, f4⟩ := fread_spec g.some
    have hp : s.pending = s.pieces.flatten := by
      unfold FileScanner.pending
      rw [List.drop_eq_nil_of_le (by rw [List.length_take]; omega), List.nil_append]
    have hb := g.buf
    unfold getchrFile
    rw [if_pos h]
    simp only
    generalize hq : (fread 256 s.pieces).1 = q at *
    generalize hr : (fread 256 s.pieces).2 = rest at *
    have gt : (⟨rest, q ++ s.buf.drop q.length, 0, q.length⟩ : FileScanner).Good := ⟨by simp; omega, by simp, f2, f3⟩
    have pt : (⟨rest, q ++ s.buf.drop q.length, 0, q.length⟩ : FileScanner).pending = s.pending := by
      rw [hp, ← f1]
      unfold FileScanner.pending
      simp
    by_cases h0 : 0 ≥ q.length
    · rw [if_pos h0]
      have hs : s.pieces = [] := f4 (List.eq_nil_of_length_eq_zero (by omega))
      have hpn : s.pending = [] := by rw [hp, hs]; rfl
      rw [hpn]
      exact ⟨_, rfl, gt, by rw [pt, hpn]; rfl⟩
    · rw [if_neg h0]
      obtain ⟨c, l, d1, d2, d3, d4⟩ := deliver _ gt (by show 0 < q.length; omega)
      simp only at d2
      rw [d2]
      rw [pt] at d1
      rw [d1]
      exact ⟨_, rfl, d3, d4⟩
  · obtain ⟨c, l, d1, d2, d3, d4⟩ := deliver s g (by omega)
    unfold getchrFile
    rw [if_neg h, d2, d1]
    exact ⟨_, rfl, d3, d4⟩

/-- `n` calls of `getchr_file` -/
def getchrs : ℕ → FileScanner → C (List Int × FileScanner)
  | 0, s => some ([], s)
  | n + 1, s => do
    let (c, s) ← getchrFile s
    let (cs, s) ← getchrs n s
    return (c :: cs, s)

theorem signedChar_spec (c : UInt8) : signedChar c = Int.bmod c.toNat 256 := by
  have := c.toNat_lt
  unfold signedChar
  rw [Int.bmod_def]
  split <;> split <;> omega

/-- **C46** for files: however often the buffered reader is called and however `fread` cuts the file into pieces, it never reads outside its 256-byte buffer, and delivers the bytes of the file one by
one, as signed characters, and then `EOF` for ever. -/
theorem C46_file_reader (pieces : List (List UInt8)) (hp : ∀ p ∈ pieces, p ≠ []) (buf : List UInt8) (hb : buf.length = 256) (n : ℕ) :
    ∃ s, getchrs n (mkScannerFile pieces buf) = some ((pieces.flatten.map (fun c => Int.bmod c.toNat 256) ++ List.replicate n EOF).take n, s) := by
  rw [show (fun c : UInt8 => Int.bmod c.toNat 256) = signedChar from funext fun c => (signedChar_spec c).symm]
  have key : ∀ (n : ℕ) (s : FileScanner), s.Good → ∃ s', getchrs n s = some ((s.pending.map signedChar ++ List.replicate n EOF).take n, s') := by
    intro n
    induction n with
    | zero => intro s _; exact ⟨s, by simp [getchrs]⟩
    | succ n ih =>
      intro s g
      obtain ⟨s1, h1, g1, p1⟩ := getchr_step g
      obtain ⟨s2, h2⟩ := ih s1 g1
      refine ⟨s2, ?_⟩
      rw [getchrs, h1]
      simp only [Option.bind_eq_bind, Option.bind_some]
      rw [h2, p1]
      simp only [Option.bind_some]
      congr 2
      rcases s.pending with _ | ⟨c, l⟩
      · simp [List.replicate_succ]
      · simp only [List.tail_cons, List.map_cons, List.cons_append, List.take_succ_cons]
        congr 1
        rw [List.replicate_succ', ← List.append_assoc]
        exact (List.take_append_of_le_length (by rw [List.length_append, List.length_replicate]; omega)).symm
  have := key n (mkScannerFile pieces buf) ⟨hb, le_refl _, by simp [mkScannerFile], hp⟩
  simpa [FileScanner.pending, mkScannerFile] using this

/-- **C20** for files: a failed import changes nothing -/
theorem C20_failed_file_import (env : Env) (st st' : PSt) (pieces : List (List UInt8)) (h : importFromFile env st pieces = some (.ok (false, st'))) : st' = st :=
  C20_failed_import_changes_nothing env st st' _ h

/-- **C20** for named files: if `import_wisdom_from_filename` returns 0, nothing has changed, unless closing the file failed -/
theorem C20_failed_filename_import (env : Env) (st st' : PSt) (f : Option (List (List UInt8))) (h : importFromFilename env st f false = some (.ok (false, st'))) : st' = st := by
  unfold importFromFilename at h
  split at h
  · cases h; rfl
  · rename_i pieces
    split at h
    · rename_i ret st2 h2
      rw [if_neg (by decide)] at h
      cases h
      exact C20_failed_file_import env st st' _ h2
    · exact C20_failed_file_import env st st' _ h

/-- **C20** for the system's file -/
theorem C20_failed_system_import (env : Env) (st st' : PSt) (f : Option (List (List UInt8))) (h : importSystemWisdom env st f = some (.ok (false, st'))) : st' = st := by
  unfold importSystemWisdom at h
  split at h
  · exact C20_failed_file_import env st st' _ h
  · cases h; rfl

/-- **C19** for files: what `export_wisdom_to_file` writes is accepted by `import_wisdom_from_file`, in whatever pieces it is read, and by `import_wisdom_from_filename` and `import_system_wisdom`, and
gives the wisdom that was exported -/
theorem C19_file_roundtrip (env : Env) (hr : Registry env) (hlen : (configMessage 8 (registered env)).length < 2 ^ 29)
    (st0 st : PSt) (h0 : ∀ x ∈ st0.blessed.contents, Exportable env x)
    (hanti : (savedFacts st0).Pairwise fun a b => ¬ Answers a b.s b.l b.u b.tli ∧ ¬ Answers b a.s a.l a.u a.tli)
    (ht : TInv env st) (hb : st.blessed.contents = 0) (hu : st.unblessed.contents = 0) (hsz : (savedFacts st0).length ≤ 2 ^ 31) :
    ∃ (text : List Int) (bytes : List UInt8) (st' : PSt), exprt env st0 = some text ∧ exportToFile text = some (bytes.map fun c => (c.toNat : Int)) ∧
      (∀ pieces : List (List UInt8), pieces.flatten = bytes → importFromFile env st pieces = some (.ok (true, st')) ∧ importFromFilename env st (some pieces) false = some (.ok (true, st')) ∧
        importSystemWisdom env st (some pieces) = some (.ok (true, st'))) ∧
      st' = { st with blessed := st'.blessed } ∧ ∀ e, e ∈ st'.blessed.contents ↔ e ∈ st0.blessed.contents := by
  obtain ⟨text, s, st', h1, h2, _, h4, h5, h6⟩ := C19_same_facts env hr hlen st0 st h0 hanti ht hb hu hsz
  have hpos : ∀ c ∈ text, 0 < c ∧ c < 128 := by
    obtain ⟨m, hm, _⟩ := C21_signature_is_md5_of_configuration env hlen
    obtain ⟨t, t1, t2, _⟩ := export_import hr hm st0 h0
    obtain rfl : t = text := Option.some.inj (t1.symm.trans h1)
    exact t2
  have hby : (text.map fun c => UInt8.ofNat c.toNat).map (fun c : UInt8 => (c.toNat : Int)) = text := by
    rw [List.map_map]
    refine (List.map_congr_left fun c hc => ?_).trans (List.map_id _)
    have := hpos c hc
    simp only [Function.comp, UInt8.toNat_ofNat', id]
    omega
  have hsc : (text.map fun c => UInt8.ofNat c.toNat).map signedChar = text := by
    rw [List.map_map]
    refine (List.map_congr_left fun c hc => ?_).trans (List.map_id _)
    have := hpos c hc
    simp only [Function.comp, signedChar, UInt8.toNat_ofNat', id]
    rw [if_pos (by omega)]
    omega
  refine ⟨text, text.map fun c => UInt8.ofNat c.toNat, st', h1, by rw [hby]; exact exportToFile_some text, fun pieces hpc => ?_, h5, h6⟩
  have k : importFromFile env st pieces = some (.ok (true, st')) := by
    unfold importFromFile
    rw [hpc, hsc]
    exact h4
  refine ⟨k, ?_, k⟩
  unfold importFromFilename
  simp only [k]
  rfl

/-- all hypotheses of `C19_file_roundtrip` are met: the three facts of Props/Wisdom -/
example : ∃ (st0 : PSt) (text : List Int) (bytes : List UInt8) (st st' : PSt), (∀ e, e ∈ st0.blessed.contents ↔ e ∈ wFacts) ∧ st.blessed.contents = 0 ∧ exprt wEnv st0 = some text ∧
    exportToFile text = some (bytes.map fun c => (c.toNat : Int)) ∧ importFromFile wEnv st [bytes] = some (.ok (true, st')) ∧ ∀ e, e ∈ st'.blessed.contents ↔ e ∈ wFacts := by
  obtain ⟨st0, st, h1, h2, _, h4, h5, _, h7, h8, h9, h10, h11⟩ := wSt_exists
  obtain ⟨text, bytes, st', k1, k2, k3, _, k5⟩ := C19_file_roundtrip wEnv h1 h2 st0 st h5 h7 h8 h9 h10 h11
  exact ⟨st0, text, bytes, st, st', h4, h9, k1, k2, (k3 [bytes] (by simp)).1, fun e => (k5 e).trans (h4 e)⟩

/-- if closing the file fails, `import_wisdom_from_filename` returns 0 although it has imported the wisdom of the file -/
theorem C20_fclose : ∃ (st st' : PSt) (pieces : List (List UInt8)), st.blessed.contents = 0 ∧ importFromFilename wEnv st (some pieces) true = some (.ok (false, st')) ∧
    ∀ e, e ∈ st'.blessed.contents ↔ e ∈ wFacts := by
  obtain ⟨st0, st, h1, h2, _, h4, h5, _, h7, h8, h9, h10, h11⟩ := wSt_exists
  obtain ⟨text, bytes, st', k1, k2, k3, _, k5⟩ := C19_file_roundtrip wEnv h1 h2 st0 st h5 h7 h8 h9 h10 h11
  refine ⟨st, st', [bytes], h9, ?_, fun e => (k5 e).trans (h4 e)⟩
  unfold importFromFilename
  simp only [(k3 [bytes] (by simp)).1]
  rfl

/-- a file of 300 bytes that arrives in pieces of 290 and 10: the buffer is filled three times -/
example (buf : List UInt8) (hb : buf.length = 256) : ∃ s, getchrs 302 (mkScannerFile [List.replicate 290 65, List.replicate 10 66] buf) =
    some (List.replicate 290 65 ++ List.replicate 10 66 ++ [EOF, EOF], s) := by
  obtain ⟨s, h⟩ := C46_file_reader [List.replicate 290 65, List.replicate 10 66] (by decide +kernel) buf hb 302
  refine ⟨s, h.trans ?_⟩
  rw [show (([List.replicate 290 65, List.replicate 10 66] : List (List UInt8)).flatten.map (fun c => Int.bmod c.toNat 256) ++ List.replicate 302 EOF).take 302 =
    List.replicate 290 65 ++ List.replicate 10 66 ++ [EOF, EOF] by decide +kernel]

end FFTW.Planner
