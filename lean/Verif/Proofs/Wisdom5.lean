import Verif.Proofs.Wisdom4
import Mathlib.Data.List.TakeWhile

/-!
# Export followed by import
-/

namespace FFTW.Planner
open FFTW.Scan FFTW.Print WisdomSpec

theorem close_stop (c : Int) (h : c = chr ')') : digitVal c = none ∧ c ≠ EOF := by rw [h]; decide
theorem sp_stop (c : Int) (h : c = chr ' ') : digitVal c = none ∧ c ≠ EOF := by rw [h]; decide
theorem nl_stop (c : Int) (h : c = chr '\n') : digitVal c = none ∧ c ≠ EOF := by rw [h]; decide
theorem hash_start (c : Int) (h : c = chr '#') : isspace c = false ∧ c ≠ EOF := by rw [h]; decide
theorem f_start (c : Int) (h : c = chr 'f') : isspace c = false ∧ c ≠ EOF := by rw [h]; decide
theorem sp_name (c : Int) (h : c = chr ' ') : ¬ nameChar c ∧ c ≠ EOF := by
  rw [h]; exact ⟨fun h => absurd h.2.1 (by decide), by decide⟩

/-- a hexadecimal field of a line -/
theorem RT.word {pf sf : List Char} {ap : List Arg} {maxs : List Int} {vs : List Scan.Res} {rest left : List Int}
    {P : Int → Prop} (x : Nat) (hx : x < 2 ^ 32) (h : RT pf ap sf maxs vs rest left P) (hP : ∀ c, P c → digitVal c = none ∧ c ≠ EOF) :
    RT (' ' :: '#' :: 'x' :: '%' :: 'M' :: pf) (.md5 x :: ap) (' ' :: '#' :: 'x' :: '%' :: 'M' :: sf) maxs (.md5 x :: vs) rest left (· = chr ' ') :=
  .blank (by decide) (by decide) (.lit (by decide) (by decide) (.lit (by decide) (by decide) (.md5 x hx h hP))) hash_start

theorem RT.flag {pf sf : List Char} {ap : List Arg} {maxs : List Int} {vs : List Scan.Res} {rest left : List Int}
    {P : Int → Prop} (x : Nat) (hx : x < 2 ^ 31) (h : RT pf ap sf maxs vs rest left P) (hP : ∀ c, P c → digitVal c = none ∧ c ≠ EOF) :
    RT (' ' :: '#' :: 'x' :: '%' :: 'x' :: pf) (.uns x :: ap) (' ' :: '#' :: 'x' :: '%' :: 'x' :: sf) maxs (.int x :: vs) rest left (· = chr ' ') :=
  .blank (by decide) (by decide) (.lit (by decide) (by decide) (.lit (by decide) (by decide) (.hex x hx h hP))) hash_start

theorem entry_RT (nam : List Int) (hn : nam.length ≤ 64) (hc : ∀ c ∈ nam, nameChar c ∧ 0 < c ∧ c < 128) (id : Int) (hi : -2 ^ 31 ≤ id) (hi' : id < 2 ^ 31)
    (l u tli s0 s1 s2 s3 : Nat) (hl : l < 2 ^ 31) (hu : u < 2 ^ 31) (ht : tli < 2 ^ 31) (h0 : s0 < 2 ^ 32) (h1 : s1 < 2 ^ 32) (h2 : s2 < 2 ^ 32)
    (h3 : s3 < 2 ^ 32) (rest : List Int) :
    RT "(%s %d #x%x #x%x #x%x #x%M #x%M #x%M #x%M)\n".toList [.str nam, .int id, .uns l, .uns u, .uns tli, .md5 s0, .md5 s1, .md5 s2, .md5 s3]
      entryScanFmt [MAXNAM] [.str nam, .int id, .int l, .int u, .int tli, .md5 s0, .md5 s1, .md5 s2, .md5 s3] rest ([chr '\n'] ++ rest) (· = chr '(') := by
  have e1 : "(%s %d #x%x #x%x #x%x #x%M #x%M #x%M #x%M)\n".toList = ['(','%','s',' ','%','d',' ','#','x','%','x',' ','#','x','%','x',' ','#','x','%','x',
    ' ','#','x','%','M',' ','#','x','%','M',' ','#','x','%','M',' ','#','x','%','M',')','\n'] := by decide
  have e2 : entryScanFmt = ['(','%','*','s',' ','%','d',' ','#','x','%','x',' ','#','x','%','x',' ','#','x','%','x',
    ' ','#','x','%','M',' ','#','x','%','M',' ','#','x','%','M',' ','#','x','%','M',')'] := by decide
  rw [e1, e2]
  have hnl : vprint ['\n'] [] = some [chr '\n'] := by decide
  have base : RT ['\n'] [] [] [] [] rest ([chr '\n'] ++ rest) (fun _ => True) := .nil hnl (by decide) rfl trivial
  have w := RT.word s0 h0 (RT.word s1 h1 (RT.word s2 h2 (RT.word s3 h3 (RT.lit (c := ')') (by decide) (by decide) base) close_stop) sp_stop) sp_stop) sp_stop
  have f := RT.flag l hl (RT.flag u hu (RT.flag tli ht w sp_stop) sp_stop) sp_stop
  exact RT.lit (by decide) (by decide) (RT.str nam MAXNAM (by unfold MAXNAM; omega) (by decide) hc
    (RT.blank (by decide) (by decide) (RT.dec id hi hi' f sp_stop) fun c h => h) sp_name)

theorem header_RT (s0 s1 s2 s3 : Nat) (h0 : s0 < 2 ^ 32) (h1 : s1 < 2 ^ 32) (h2 : s2 < 2 ^ 32)
    (h3 : s3 < 2 ^ 32) (bl rest : List Int) (hb : Spec.Blank bl) {c : Int} {cs : List Int} (hr : rest = c :: cs) (hc : isspace c = false ∧ c ≠ EOF) :
    ∃ text, vprint headerFmt [.md5 s0, .md5 s1, .md5 s2, .md5 s3] = some text ∧ (∀ c ∈ text, 0 < c ∧ c < 128) ∧ ∀ sc : Scanner, sc.view = text ++ (bl ++ rest) →
      ∃ sc', vscan sc headerFmt [] = some (true, [.md5 s0, .md5 s1, .md5 s2, .md5 s3], sc') ∧ sc'.view = rest := by
  have e1 : headerFmt = ['(','f','f','t','w','-','3','.','3','.','1','1',' ','f','f','t','w','_','w','i','s','d','o','m',
    ' ','#','x','%','M',' ','#','x','%','M',' ','#','x','%','M',' ','#','x','%','M','\n'] := by decide
  have hnl : vprint ['\n'] [] = some [chr '\n'] := by decide
  have base : RT ['\n'] [] ['\n'] [] [] (bl ++ rest) rest (· = chr '\n') := by
    refine ⟨[chr '\n'], hnl, by decide, ⟨_, _, rfl, rfl⟩, ?_⟩
    intro sc hv
    rw [vscan_lit (by decide)]
    simp only [show isspace (chr '\n') = true by decide, true_or, if_true]
    refine ⟨_, by rw [vscan]; rfl, ?_⟩
    refine eatBlanks_view (chr '\n' :: bl) ?_ rest ?_ sc (by rw [hv]; simp)
    · intro a ha
      rcases List.mem_cons.1 ha with rfl | ha
      · decide
      · exact (isspace_iff a).2 (hb a ha)
    · intro a as ha
      rw [hr] at ha
      simp only [List.cons.injEq] at ha
      rw [← ha.1]
      exact hc
  have w := RT.word s0 h0 (RT.word s1 h1 (RT.word s2 h2 (RT.word s3 h3 base nl_stop) sp_stop) sp_stop) sp_stop
  have l : ∀ {c : Char} {pf sf : List Char} {ap : List Arg} {maxs : List Int} {vs : List Scan.Res} {rest left : List Int} {P : Int → Prop}, 
      c ≠ '%' → isspace (chr c) = false → 0 < chr c ∧ chr c < 128 → RT pf ap sf maxs vs rest left P → RT (c :: pf) ap (c :: sf) maxs vs rest left (· = chr c) := fun h1 h2 h3 h => RT.lit h1 h2 h h3
  obtain ⟨t, t1, ta, _, t3⟩ := l (c := '(') (by decide) (by decide) (by decide) <| l (c := 'f') (by decide) (by decide) (by decide) <| l (c := 'f') (by decide) (by decide) (by decide) <| l (c := 't') (by decide) (by decide) (by decide) <|
    l (c := 'w') (by decide) (by decide) (by decide) <| l (c := '-') (by decide) (by decide) (by decide) <| l (c := '3') (by decide) (by decide) (by decide) <| l (c := '.') (by decide) (by decide) (by decide) <|
    l (c := '3') (by decide) (by decide) (by decide) <| l (c := '.') (by decide) (by decide) (by decide) <| l (c := '1') (by decide) (by decide) (by decide) <| l (c := '1') (by decide) (by decide) (by decide) <|
    RT.blank (c := ' ') (by decide) (by decide) (l (c := 'f') (by decide) (by decide) (by decide) <| l (c := 'f') (by decide) (by decide) (by decide) <| l (c := 't') (by decide) (by decide) (by decide) <|
    l (c := 'w') (by decide) (by decide) (by decide) <| l (c := '_') (by decide) (by decide) (by decide) <| l (c := 'w') (by decide) (by decide) (by decide) <| l (c := 'i') (by decide) (by decide) (by decide) <| 
    l (c := 's') (by decide) (by decide) (by decide) <| l (c := 'd') (by decide) (by decide) (by decide) <| l (c := 'o') (by decide) (by decide) (by decide) <| l (c := 'm') (by decide) (by decide) (by decide) w) f_start
  rw [← e1] at t1 t3
  exact ⟨t, t1, ta, t3⟩

/-- what is needed of the registered solvers: printable names of at most 64 characters, `int` numbers, no two solvers with
the same name and number, none called ("TIMEOUT", 0), and fewer than 4095 solvers -/
structure Registry (env : Env) : Prop where
  len : env.slvdescs.length < 0xFFF
  name : ∀ d ∈ env.slvdescs, d.regNam.length ≤ 64 ∧ ∀ c ∈ d.regNam, 33 ≤ c.toNat ∧ c.toNat < 128 ∧ c ≠ 40 ∧ c ≠ 41
  id : ∀ d ∈ env.slvdescs, -2 ^ 31 ≤ d.regId ∧ d.regId < 2 ^ 31
  distinct : ∀ (i j : ℕ) (d d' : SlvDesc), env.slvdescs[i]? = some d → env.slvdescs[j]? = some d' → d.regNam = d'.regNam → d.regId = d'.regId → i = j
  notTimeout : ∀ d ∈ env.slvdescs, cstr d.regNam ≠ stimeout ∨ d.regId ≠ 0

/-- facts that can be exported: 32-bit signatures, a registered solver without time-limit class, or "no plan" -/
def Exportable (env : Env) (e : Entry) : Prop :=
  e.s.s0 < 2 ^ 32 ∧ e.s.s1 < 2 ^ 32 ∧ e.s.s2 < 2 ^ 32 ∧ e.s.s3 < 2 ^ 32 ∧ (e.slvndx = 0xFFF ∨ e.slvndx.toNat < env.slvdescs.length ∧ e.tli = 0)

theorem cstr_inj {a b : List UInt8} (h : cstr a = cstr b) : a = b := by
  unfold cstr at h
  refine List.map_injective_iff.2 ?_ h
  intro x y hxy
  have : x.toNat = y.toNat := by simpa using hxy
  exact UInt8.toNat_inj.1 this

theorem cstr_name {s : List UInt8} (h : ∀ c ∈ s, 33 ≤ c.toNat ∧ c.toNat < 128 ∧ c ≠ 40 ∧ c ≠ 41) : ∀ c ∈ cstr s, nameChar c ∧ 0 < c ∧ c < 128 := by
  intro c hc
  unfold cstr at hc
  obtain ⟨a, ha, rfl⟩ := List.mem_map.1 hc
  obtain ⟨h1, h2, h3, h4⟩ := h a ha
  have n3 : a.toNat ≠ 40 := fun hh => h3 (UInt8.toNat_inj.1 (by rw [hh]; rfl))
  have n4 : a.toNat ≠ 41 := fun hh => h4 (UInt8.toNat_inj.1 (by rw [hh]; rfl))
  have e1 : chr '(' = 40 := by decide
  have e2 : chr ')' = 41 := by decide
  refine ⟨⟨?_, ?_, ?_, ?_⟩, by omega, by omega⟩
  · unfold EOF; omega
  · simp only [isspace, decide_eq_false_iff_not]; omega
  · rw [e2]; omega
  · rw [e1]; omega

theorem upToNul_name {s : List Int} (h : ∀ c ∈ s, nameChar c ∧ 0 < c ∧ c < 128) : upToNul s = s := by
  unfold upToNul
  rw [List.takeWhile_eq_self_iff]
  intro c hc
  have := (h c hc).1.2.1
  simp only [isspace, decide_eq_false_iff_not] at this
  simp only [decide_eq_true_eq]
  rintro rfl
  omega

theorem slookupLoop_find {nam : List Int} {id : Int} (L : List SlvDesc) : ∀ (i j : ℕ) (d : SlvDesc), L[j]? = some d → cstr d.regNam = nam → d.regId = id →
    (∀ (k : ℕ) (d' : SlvDesc), L[k]? = some d' → cstr d'.regNam = nam → d'.regId = id → k = j) → slookupLoop nam id L i = some (i + j) := by
  induction L with
  | nil => intro i j d h; simp at h
  | cons a L ih =>
    intro i j d h h1 h2 hu
    rw [slookupLoop]
    split
    · rename_i hc
      have := hu 0 a (by simp) hc.2.2 hc.1
      subst this
      rfl
    · rename_i hc
      cases j with
      | zero =>
        simp only [List.getElem?_cons_zero, Option.some.injEq] at h
        subst h
        exact absurd ⟨h2, by rw [h1], h1⟩ hc
      | succ j =>
        rw [ih (i + 1) j d (by simpa using h) h1 h2 (fun k d' hk a b => by
          have := hu (k + 1) d' (by simpa using hk) a b
          omega)]
        congr 1
        omega

theorem slookup_eq {env : Env} (hr : Registry env) {i : ℕ} {d : SlvDesc} (h : env.slvdescs[i]? = some d) : slookup env (cstr d.regNam) d.regId = i := by
  unfold slookup
  rw [slookupLoop_find env.slvdescs 0 i d h rfl rfl (fun k d' hk h1 h2 => hr.distinct k i d' d hk h (cstr_inj h1) h2)]
  simp

theorem timeout_name : ∀ c ∈ stimeout, nameChar c ∧ 0 < c ∧ c < 128 := by
  have e : stimeout = [84, 73, 77, 69, 79, 85, 84] := by decide
  rw [e]
  unfold nameChar
  decide

/-- one line -/
theorem export_import_entry {env : Env} (hr : Registry env) (x : Slot) (hx : Exportable env x.entry) :
    ∃ nam id, exportName env x = some (nam, id) ∧ nam.length ≤ 64 ∧ (∀ c ∈ nam, nameChar c ∧ 0 < c ∧ c < 128) ∧ -2 ^ 31 ≤ id ∧ id < 2 ^ 31 ∧
      ∀ st : PSt, importEntry env st nam id x.fl.l.toNat x.fl.u.toNat x.fl.tli.toNat x.s = lookInsert st x.s ⟨x.fl.l, x.fl.u, x.fl.tli, BLESSING⟩ x.slvndx := by
  obtain ⟨_, _, _, _, hs⟩ := hx
  have hs : x.slvndx = 0xFFF ∨ x.slvndx.toNat < env.slvdescs.length ∧ x.fl.tli = 0 := hs
  have fin : ∀ st : PSt, ∀ i : ℕ, x.slvndx = BitVec.ofNat 12 i →
      (if (BitVec.ofNat 20 x.fl.l.toNat).toNat ≠ x.fl.l.toNat ∨ (BitVec.ofNat 20 x.fl.u.toNat).toNat ≠ x.fl.u.toNat ∨ (BitVec.ofNat 9 x.fl.tli.toNat).toNat ≠ x.fl.tli.toNat then .error .abort
      else lookInsert st x.s ⟨BitVec.ofNat 20 x.fl.l.toNat, BitVec.ofNat 20 x.fl.u.toNat, BitVec.ofNat 9 x.fl.tli.toNat, BLESSING⟩ (BitVec.ofNat 12 i))
      = lookInsert st x.s ⟨x.fl.l, x.fl.u, x.fl.tli, BLESSING⟩ x.slvndx := by
    intro st i hi
    rw [if_neg (by simp), BitVec.ofNat_toNat, BitVec.ofNat_toNat, BitVec.ofNat_toNat, hi]
    simp
  by_cases hinf : x.slvndx = 0xFFF
  · refine ⟨stimeout, 0, ?_, by decide, timeout_name, by norm_num, by norm_num, ?_⟩
    · rw [exportName, if_pos (show x.slvndx = INFEASIBLE_SLVNDX from hinf)]
    · intro st
      rw [← fin st 0xFFF (by rw [hinf]; rfl)]
      unfold importEntry
      simp only [upToNul_name timeout_name, and_self, if_true]
      rfl
  · obtain ⟨hlt, htl⟩ := hs.resolve_left hinf
    have hd : env.slvdescs[x.slvndx.toNat]? = some (env.slvdescs[x.slvndx.toNat]) := List.getElem?_eq_getElem hlt
    generalize env.slvdescs[x.slvndx.toNat] = d at hd
    have hmem : d ∈ env.slvdescs := List.mem_of_getElem? hd
    obtain ⟨n1, n2⟩ := hr.name d hmem
    have hn := cstr_name n2
    refine ⟨cstr d.regNam, d.regId, ?_, by simpa [cstr] using n1, hn, (hr.id d hmem).1, (hr.id d hmem).2, ?_⟩
    · rw [exportName, if_neg (show ¬ x.slvndx = INFEASIBLE_SLVNDX from hinf), hd]; rfl
    · intro st
      rw [← fin st x.slvndx.toNat (by simp)]
      unfold importEntry
      simp only [upToNul_name hn]
      have hnt : ¬ (cstr d.regNam = stimeout ∧ d.regId = 0) := by
        rcases hr.notTimeout d hmem with h | h
        · exact fun h' => h h'.1
        · exact fun h' => h h'.2
      have hne : x.slvndx.toNat ≠ INFEASIBLE_SLVNDX.toNat := by
        have : INFEASIBLE_SLVNDX.toNat = 4095 := by decide
        have := hr.len
        omega
      rw [if_neg hnt, slookup_eq hr hd, if_neg hne]
      rw [if_neg (show ¬ (x.fl.tli.toNat ≠ 0) by rw [htl]; simp)]
      rfl

theorem vscan_close {sc : Scanner} {bl tail : List Int} (hb : Spec.Blank bl) (h : sc.view = bl ++ chr ')' :: tail) :
    ∃ sc', vscan sc ")".toList [] = some (true, [], sc') ∧ sc'.view = tail := by
  have hv := eatBlanks_view bl (fun a ha => (isspace_iff a).2 (hb a ha)) (chr ')' :: tail) (by
    intro a as ha
    simp only [List.cons.injEq] at ha
    rw [← ha.1]
    decide) sc h
  obtain ⟨g1, g2, _⟩ := getc_cons hv
  refine ⟨(getc (eatBlanks sc)).2, ?_, g2⟩
  rw [show ")".toList = [')'] by decide, vscan_lit (by decide)]
  simp only [show isspace (chr ')') = false by decide, Bool.false_eq_true, false_or, if_false]
  rw [if_pos (Or.inr trivial), if_neg (by simp [g1]), vscan]
  rfl

theorem vscan_close_open {sc : Scanner} {bl tail : List Int} (hb : Spec.Blank bl) (h : sc.view = bl ++ chr '(' :: tail) :
    ∃ vs sc', vscan sc ")".toList [] = some (false, vs, sc') ∧ sc'.view = chr '(' :: tail := by
  have hv := eatBlanks_view bl (fun a ha => (isspace_iff a).2 (hb a ha)) (chr '(' :: tail) (by
    intro a as ha
    simp only [List.cons.injEq] at ha
    rw [← ha.1]
    decide) sc h
  obtain ⟨g1, g2, g3⟩ := getc_cons hv
  refine ⟨[], ungetc (getc (eatBlanks sc)).2 (getc (eatBlanks sc)).1, ?_, ?_⟩
  · rw [show ")".toList = [')'] by decide, vscan_lit (by decide)]
    simp only [show isspace (chr ')') = false by decide, Bool.false_eq_true, false_or, if_false]
    rw [if_pos (Or.inr trivial), if_pos (by rw [g1]; decide)]
  · rw [g1, view_ungetc g3 _ (by decide), g2]

theorem exportSlot_text {env : Env} (hr : Registry env) (x : Slot) (hx : Exportable env x.entry) :
    ∃ nam id text, exportSlot env x = some (chr ' ' :: chr ' ' :: text) ∧ (∀ c ∈ text, 0 < c ∧ c < 128) ∧ (∃ t, text = chr '(' :: t) ∧
      (∀ st : PSt, importEntry env st nam id x.fl.l.toNat x.fl.u.toNat x.fl.tli.toNat x.s = lookInsert st x.s ⟨x.fl.l, x.fl.u, x.fl.tli, BLESSING⟩ x.slvndx) ∧
      ∀ (rest : List Int) (sc : Scanner), sc.view = text ++ rest → ∃ sc', vscan sc entryScanFmt [MAXNAM] = some (true, [.str nam, .int id, .int x.fl.l.toNat,
        .int x.fl.u.toNat, .int x.fl.tli.toNat, .md5 x.s.s0, .md5 x.s.s1, .md5 x.s.s2, .md5 x.s.s3], sc') ∧ sc'.view = [chr '\n'] ++ rest := by
  obtain ⟨nam, id, h1, h2, h3, h4, h5, h6⟩ := export_import_entry hr x hx
  obtain ⟨x0, x1, x2, x3, _⟩ := hx
  have key := fun rest => entry_RT nam h2 h3 id h4 h5 x.fl.l.toNat x.fl.u.toNat x.fl.tli.toNat x.s.s0 x.s.s1 x.s.s2 x.s.s3
    (lt_trans x.fl.l.isLt (by norm_num)) (lt_trans x.fl.u.isLt (by norm_num)) (lt_trans x.fl.tli.isLt (by norm_num)) x0 x1 x2 x3 rest
  obtain ⟨t0, a1, aa, ⟨c, cs, a2, a3⟩, _⟩ := key [0]
  refine ⟨nam, id, t0, ?_, aa, ?_, h6, ?_⟩
  · unfold exportSlot
    rw [h1]
    simp only [Option.bind_eq_bind, Option.bind_some]
    have e : entryFmt = ' ' :: ' ' :: "(%s %d #x%x #x%x #x%x #x%M #x%M #x%M #x%M)\n".toList := by decide
    rw [e, vprint_lit (by decide), vprint_lit (by decide), a1]
    rfl
  · cases t0 with
    | nil =>
      simp only [List.nil_append, List.cons.injEq] at a2
      rw [← a2.1] at a3
      exact absurd a3 (by decide)
    | cons b t =>
      simp only [List.cons_append, List.cons.injEq] at a2
      exact ⟨t, by rw [a2.1, a3]⟩
  · intro rest sc hv
    obtain ⟨t1, b1, _, _, b3⟩ := key rest
    rw [a1] at b1
    simp only [Option.some.injEq] at b1
    subst b1
    exact b3 sc hv

theorem asUnsigned_ofNat {w : ℕ} (hw : w ≤ 32) (x : BitVec w) : asUnsigned (x.toNat : Int) = x.toNat := by
  unfold asUnsigned
  have := x.isLt
  have : 2 ^ w ≤ 2 ^ 32 := Nat.pow_le_pow_right (by norm_num) hw
  omega

theorem strip {bl2 v bl : List Int} {c : Int} {rest : List Int} (h2 : Spec.Blank bl2) (hb : Spec.Blank bl) (hc : isspace c = false) (h : bl2 ++ v = bl ++ c :: rest) :
    ∃ bl', Spec.Blank bl' ∧ v = bl' ++ c :: rest := by
  rcases List.append_eq_append_iff.1 h with ⟨a, h1, h3⟩ | ⟨a, h1, h3⟩
  · exact ⟨a, fun x hx => hb x (by rw [h1]; exact List.mem_append_right _ hx), h3⟩
  · cases a with
    | nil => exact ⟨[], by simp [Spec.Blank], by simpa using h3.symm⟩
    | cons d a =>
      simp only [List.cons_append, List.cons.injEq] at h3
      have := h2 c (by rw [h1, h3.1]; simp)
      rw [(isspace_iff c).2 this] at hc
      simp at hc

theorem export_import_loop {env : Env} (hr : Registry env) (L : List Slot) : (∀ x ∈ L, x.live = true → Exportable env x.entry) →
    ∃ body, exportLoop env L = some body ∧ (∀ c ∈ body, 0 < c ∧ c < 128) ∧ (∃ bl c cs, Spec.Blank bl ∧ body ++ [chr ')'] = bl ++ c :: cs ∧ (isspace c = false ∧ c ≠ EOF)) ∧
      ∀ (st : PSt) (sc : Scanner) (bl2 bl tail : List Int), TInv env st → st.blessed.nelem + (L.filter Slot.live).length ≤ 2 ^ 31 → Spec.Blank bl2 → Spec.Blank bl →
        bl2 ++ sc.view = bl ++ (body ++ chr ')' :: tail) →
        ∃ st' sc', importLoop env st sc = some (.ok (true, st', sc')) ∧ TInv env st' ∧ st'.unblessed = st.unblessed ∧
          (∀ x, x ∈ st'.blessed.contents ↔ x ∈ learnAll {x | x ∈ st.unblessed.contents} {x | x ∈ st.blessed.contents} ((L.filter Slot.live).map Slot.entry)) ∧
          st'.blessed.nelem ≤ st.blessed.nelem + (L.filter Slot.live).length := by
  induction L with
  | nil =>
    intro _
    refine ⟨[], rfl, by simp, ⟨[], chr ')', [], by simp [Spec.Blank], rfl, by decide⟩, ?_⟩
    intro st sc bl2 bl tail ht _ hb2 hb hv
    obtain ⟨bl, hb, hv⟩ := strip hb2 hb (by decide) hv
    obtain ⟨sc', h1, h2⟩ := vscan_close hb hv
    refine ⟨st, sc', ?_, ht, rfl, fun x => Iff.rfl, by simp⟩
    rw [importLoop.eq_def, h1]
  | cons x L ih =>
    intro hL
    obtain ⟨body, b1, ba, ⟨bl0, c0, cs0, b2, b3, b4⟩, b5⟩ := ih (fun y hy => hL y (List.mem_cons_of_mem _ hy))
    rw [exportLoop]
    by_cases hlive : x.live = true
    · rw [if_pos hlive]
      obtain ⟨nam, id, text, e1, ea, ⟨t, e2⟩, e3, e4⟩ := exportSlot_text hr x (hL x (List.mem_cons_self ..) hlive)
      refine ⟨chr ' ' :: chr ' ' :: text ++ body, by rw [e1, b1]; rfl, ascii_append (ascii_cons (by decide) (ascii_cons (by decide) ea)) ba, ⟨[chr ' ', chr ' '], chr '(', t ++ body ++ [chr ')'], ?_, ?_, by decide⟩, ?_⟩
      · unfold Spec.Blank; decide
      · rw [e2]; simp
      · intro st sc bl2 bl tail ht hn hb2 hb hv
        have hb' : Spec.Blank (bl ++ [chr ' ', chr ' ']) := by
          intro c hc
          rcases List.mem_append.1 hc with h | h
          · exact hb c h
          · have : ∀ c ∈ [chr ' ', chr ' '], 0 ≤ c ∧ c ≤ 32 := by decide
            exact this c h
        obtain ⟨bl', hb'', hv'⟩ := strip (c := chr '(') (rest := t ++ (body ++ chr ')' :: tail)) hb2 hb' (by decide) (by rw [hv, e2]; simp)
        obtain ⟨vs, sc1, g1, g2⟩ := vscan_close_open (tail := t ++ (body ++ chr ')' :: tail)) hb'' hv'
        obtain ⟨sc2, g3, g4⟩ := e4 (body ++ chr ')' :: tail) sc1 (by rw [g2, e2]; simp)
        rw [List.filter_cons_of_pos hlive, List.length_cons] at hn
        rcases lookInsert_spec ht x.entry (by
          rcases (hL x (List.mem_cons_self ..) hlive).2.2.2.2 with h | h
          · exact Or.inl h
          · exact Or.inr h.1) with ⟨_, h2⟩ | ⟨st1, k1, k2, k3, k4, k5⟩
        · omega
        · obtain ⟨st', sc', m1, m2, m3, m4, m5⟩ := b5 st1 sc2 [] [chr '\n'] tail k2 (by omega) (by simp [Spec.Blank]) (by unfold Spec.Blank; decide) g4
          refine ⟨st', sc', ?_, m2, m3.trans k4, ?_, by rw [List.filter_cons_of_pos hlive, List.length_cons]; omega⟩
          · rw [importLoop.eq_def, g1]
            simp only [g3]
            rw [asUnsigned_ofNat (by norm_num), asUnsigned_ofNat (by norm_num), asUnsigned_ofNat (by norm_num), e3]
            rw [show lookInsert st x.s ⟨x.fl.l, x.fl.u, x.fl.tli, BLESSING⟩ x.slvndx = _ from k1]
            exact m1
          · intro y
            rw [m4, List.filter_cons_of_pos hlive, List.map_cons, learnAll, learnAll, List.foldl_cons, k4]
            rw [show {x | x ∈ st1.blessed.contents} = learn {x | x ∈ st.unblessed.contents} {x | x ∈ st.blessed.contents} x.entry from Set.ext k3]
    · rw [if_neg hlive]
      refine ⟨body, b1, ba, ⟨bl0, c0, cs0, b2, b3, b4⟩, ?_⟩
      intro st sc bl2 bl tail ht hn hb2 hb hv
      rw [List.filter_cons_of_neg hlive] at hn
      rw [List.filter_cons_of_neg hlive]
      exact b5 st sc bl2 bl tail ht (by omega) hb2 hb hv

theorem export_import' {env : Env} (hr : Registry env) {m : MSig} (hm : signatureOfConfiguration env = some m)
    (st0 : PSt) (h0 : ∀ x ∈ st0.blessed.contents, Exportable env x) :
    ∃ text, exprt env st0 = some text ∧ (∀ c ∈ text, 0 < c ∧ c < 128) ∧
      (∃ sc, vscan (mkScanner text) headerFmt [] = some (true, [.md5 m.s0, .md5 m.s1, .md5 m.s2, .md5 m.s3], sc)) ∧ ∀ (st : PSt), TInv env st → st.blessed.nelem + (st0.blessed.sols.filter Slot.live).length ≤ 2 ^ 31 →
      ∃ st', imprt env st (mkScanner text) = some (.ok (true, st')) ∧ TInv env st' ∧ st' = { st with blessed := st'.blessed } ∧
        (∀ x, x ∈ st'.blessed.contents ↔ x ∈ learnAll {x | x ∈ st.unblessed.contents} {x | x ∈ st.blessed.contents} ((st0.blessed.sols.filter Slot.live).map Slot.entry)) ∧
        st'.blessed.nelem ≤ st.blessed.nelem + (st0.blessed.sols.filter Slot.live).length := by
  have hmb : m.s0 < 2 ^ 32 ∧ m.s1 < 2 ^ 32 ∧ m.s2 < 2 ^ 32 ∧ m.s3 < 2 ^ 32 := by
    unfold signatureOfConfiguration at hm
    simp only [Option.bind_eq_bind] at hm
    obtain ⟨a, _, h⟩ := Option.bind_eq_some_iff.1 hm
    simp only [Option.pure_def, Option.some.injEq] at h
    subst h
    exact ⟨BitVec.isLt _, BitVec.isLt _, BitVec.isLt _, BitVec.isLt _⟩
  obtain ⟨body, b1, ba, ⟨bl, c, cs, b2, b3, b4⟩, b5⟩ := export_import_loop hr st0.blessed.sols
    (fun x hx hl => h0 _ (mem_contents.2 ⟨x, hx, hl, rfl⟩))
  obtain ⟨text, t1, ta, t2⟩ := header_RT m.s0 m.s1 m.s2 m.s3 hmb.1 hmb.2.1 hmb.2.2.1 hmb.2.2.2 bl (c :: (cs ++ [chr '\n'])) b2 rfl b4
  have hend : vprint ")\n".toList [] = some [chr ')', chr '\n'] := by decide
  refine ⟨text ++ body ++ [chr ')', chr '\n'], ?_, ascii_append (ascii_append ta ba) (by decide), ?_, ?_⟩
  · unfold exprt
    rw [hm]
    simp only [Option.bind_eq_bind, Option.bind_some]
    rw [t1, b1, hend]
    rfl
  · have hbody : body ++ [chr ')', chr '\n'] = bl ++ c :: (cs ++ [chr '\n']) := by
      have := congrArg (· ++ [chr '\n']) b3
      simpa using this
    obtain ⟨sc', g1, g2⟩ := t2 (mkScanner (text ++ body ++ [chr ')', chr '\n'])) (by rw [view_mk, List.append_assoc, hbody])
    exact ⟨sc', g1⟩
  · intro st ht hn
    have hbody : body ++ [chr ')', chr '\n'] = bl ++ c :: (cs ++ [chr '\n']) := by
      have := congrArg (· ++ [chr '\n']) b3
      simpa using this
    obtain ⟨sc', g1, g2⟩ := t2 (mkScanner (text ++ body ++ [chr ')', chr '\n'])) (by rw [view_mk, List.append_assoc, hbody])
    obtain ⟨st', sc2, k1, k2, k3, k4, k5⟩ := b5 st sc' bl [] [chr '\n'] ht hn b2 (by simp [Spec.Blank]) (by rw [g2, ← hbody]; rfl)
    have himp : imprt env st (mkScanner (text ++ body ++ [chr ')', chr '\n'])) = some (.ok (true, st')) := by
      unfold imprt
      rw [g1]
      simp only [hm]
      rw [if_neg (by simp)]
      unfold importBody
      simp only [k1]
    exact ⟨st', himp, k2, imprt_same himp, k4, k5⟩

theorem export_import {env : Env} (hr : Registry env) {m : MSig} (hm : signatureOfConfiguration env = some m)
    (st0 : PSt) (h0 : ∀ x ∈ st0.blessed.contents, Exportable env x) :
    ∃ text, exprt env st0 = some text ∧ (∀ c ∈ text, 0 < c ∧ c < 128) ∧ ∀ (st : PSt), TInv env st → st.blessed.nelem + (st0.blessed.sols.filter Slot.live).length ≤ 2 ^ 31 →
      ∃ st', imprt env st (mkScanner text) = some (.ok (true, st')) ∧ TInv env st' ∧ st' = { st with blessed := st'.blessed } ∧
        ∀ x, x ∈ st'.blessed.contents ↔ x ∈ learnAll {x | x ∈ st.unblessed.contents} {x | x ∈ st.blessed.contents} ((st0.blessed.sols.filter Slot.live).map Slot.entry) := by
  obtain ⟨text, h1, h2, _, h3⟩ := export_import' hr hm st0 h0
  refine ⟨text, h1, h2, fun st ht hn => ?_⟩
  obtain ⟨st', k1, k2, k3, k4, _⟩ := h3 st ht hn
  exact ⟨st', k1, k2, k3, k4⟩

theorem export_header {env : Env} (hr : Registry env) {m : MSig} (hm : signatureOfConfiguration env = some m)
    (st0 : PSt) (h0 : ∀ x ∈ st0.blessed.contents, Exportable env x) :
    ∃ text, exprt env st0 = some text ∧ ∃ sc, vscan (mkScanner text) headerFmt [] = some (true, [.md5 m.s0, .md5 m.s1, .md5 m.s2, .md5 m.s3], sc) := by
  obtain ⟨text, h1, _, h2, _⟩ := export_import' hr hm st0 h0
  exact ⟨text, h1, h2⟩

theorem exportLoop_dead {env : Env} (L : List Slot) (h : L.filter Slot.live = []) : exportLoop env L = some [] := by
  induction L with
  | nil => rfl
  | cons x L ih =>
    rw [exportLoop]
    by_cases hx : x.live = true
    · rw [List.filter_cons_of_pos hx] at h; simp at h
    · rw [if_neg hx]; rw [List.filter_cons_of_neg hx] at h; exact ih h

end FFTW.Planner
