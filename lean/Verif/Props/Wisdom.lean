import Verif.Proofs.Wisdom5
import Verif.Props.Md5
import Verif.Props.Planner

/-!
# C19, C20, C21 and the part of C18 on export: writing and reading wisdom
-/

namespace FFTW.Planner
open FFTW.Scan FFTW.Print WisdomSpec FFTW.Scan.Spec

/-! ### C20 -/

/-- **C20.**  If an import of any input returns 0, the planner (hence all wisdom) is exactly what it was. -/
theorem C20_failed_import_changes_nothing (env : Env) (st st' : PSt) (input : List Int) (h : imprt env st (mkScanner input) = some (.ok (false, st'))) :
    st' = st := imprt_failed h

/-- **C20**, also from a string in memory -/
theorem C20_failed_string_import_changes_nothing (env : Env) (st st' : PSt) (s : List UInt8) (h : importFromString env st s = some (.ok (false, st'))) :
    st' = st := imprt_failed h

/-- **C20**, whatever the return value only the saved wisdom may change: not the temporary knowledge, not the flags -/
theorem C20_import_touches_only_saved_wisdom (env : Env) (st st' : PSt) (b : Bool) (input : List Int)
    (h : imprt env st (mkScanner input) = some (.ok (b, st'))) : st' = { st with blessed := st'.blessed } := imprt_same h

/-- **C46**, termination: an import ends on every input -/
theorem C46_import_terminates (env : Env) (st : PSt) (input : List Int) : imprt env st (mkScanner input) ≠ none := imprt_terminates env st _

/-! ### C21 -/

/-- little-endian bytes of a 32-bit integer -/
def le4 (x : Int) : List Md5.Byte := [BitVec.ofInt 8 x, BitVec.ofInt 8 (x / 256), BitVec.ofInt 8 (x / 65536), BitVec.ofInt 8 (x / 16777216)]

/-- the text that stands for a configuration: the size of the real type, then number and name (with its NUL) of every solver -/
def configMessage (size : Int) (L : List (Int × List UInt8)) : List Md5.Byte :=
  le4 size ++ (L.map fun d => le4 d.1 ++ (d.2.map UInt8.toBitVec ++ [0])).flatten

/-- numbers and names of the registered solvers -/
def registered (env : Env) : List (Int × List UInt8) := env.slvdescs.map fun d => (d.regId, d.regNam)

theorem bytes4_eq (x : Int) : bytes4 x = le4 x := by
  simp [bytes4, le4, List.range_succ]

theorem sigStep_inv (L : List SlvDesc) : ∀ {m : Md5.Ctx 32} {bs : List Md5.Byte}, Md5.Inv m bs →
    Md5.Inv (L.foldl sigStep m) (bs ++ ((L.map fun d => (d.regId, d.regNam)).map fun d => le4 d.1 ++ (d.2.map UInt8.toBitVec ++ [0])).flatten) := by
  induction L with
  | nil => intro m bs h; simpa using h
  | cons d L ih =>
    intro m bs h
    have h1 := Md5.putb_inv (by norm_num) (bytes4 d.regId) h
    have h2 := Md5.putb_inv (by norm_num) (d.regNam.map UInt8.toBitVec ++ [0]) h1
    have h3 := ih h2
    rw [bytes4_eq] at h3
    simp only [List.foldl_cons, List.map_cons, List.flatten_cons]
    have e : sigStep m d = Md5.putb (Md5.putb m (le4 d.regId)) (d.regNam.map UInt8.toBitVec ++ [0]) := by
      rw [sigStep, Md5.puts_eq, bytes4_eq]
    rw [e]
    simpa [List.append_assoc] using h3

/-- **C21**, the configuration signature is the MD5 digest of the size of `R` and of the registered solvers -/
theorem C21_signature_is_md5_of_configuration (env : Env) (hlen : (configMessage 8 (registered env)).length < 2 ^ 29) :
    ∃ m, signatureOfConfiguration env = some m ∧
      m.s0 = (RFC1321.md5 (configMessage 8 (registered env))).a.toNat ∧ m.s1 = (RFC1321.md5 (configMessage 8 (registered env))).b.toNat ∧
      m.s2 = (RFC1321.md5 (configMessage 8 (registered env))).c.toNat ∧ m.s3 = (RFC1321.md5 (configMessage 8 (registered env))).d.toNat := by
  have h1 := Md5.putb_inv (by norm_num) (bytes4 8) (Md5.begin_inv (w := 32) (by norm_num) fun _ => 0)
  have h2 := sigStep_inv env.slvdescs h1
  rw [bytes4_eq, List.nil_append] at h2
  obtain ⟨p, h3, h4⟩ := Md5.end_spec (by norm_num) h2 hlen
  refine ⟨⟨p.s.s0.toNat, p.s.s1.toNat, p.s.s2.toNat, p.s.s3.toNat⟩, ?_, ?_⟩
  · unfold signatureOfConfiguration
    simp only [Option.bind_eq_bind]
    rw [bytes4_eq, h3]
    rfl
  · rw [h4]
    simp only [Md5.upS, BitVec.setWidth_eq]
    exact ⟨rfl, rfl, rfl, rfl⟩

theorem le4_inj {x y : Int} (hx : -2 ^ 31 ≤ x ∧ x < 2 ^ 31) (hy : -2 ^ 31 ≤ y ∧ y < 2 ^ 31) (h : le4 x = le4 y) : x = y := by
  simp only [le4, List.cons.injEq, and_true] at h
  obtain ⟨h0, h1, h2, h3⟩ := h
  have key : ∀ a b : Int, BitVec.ofInt 8 a = BitVec.ofInt 8 b → a % 256 = b % 256 := by
    intro a b h
    have := congrArg BitVec.toNat h
    simp only [BitVec.toNat_ofInt] at this
    omega
  have h0 := key _ _ h0
  have h1 := key _ _ h1
  have h2 := key _ _ h2
  have h3 := key _ _ h3
  omega

theorem nul_split {a b : List UInt8} (ha : (0 : UInt8) ∉ a) (hb : (0 : UInt8) ∉ b) {r s : List Md5.Byte}
    (h : a.map UInt8.toBitVec ++ 0 :: r = b.map UInt8.toBitVec ++ 0 :: s) : a = b ∧ r = s := by
  induction a generalizing b with
  | nil =>
    cases b with
    | nil => simpa using h
    | cons y b =>
      simp only [List.map_nil, List.nil_append, List.map_cons, List.cons_append, List.cons.injEq] at h
      exact absurd (List.mem_cons.2 (Or.inl (UInt8.toBitVec_inj.1 (by rw [← h.1]; rfl)))) hb
  | cons x a ih =>
    cases b with
    | nil =>
      simp only [List.map_nil, List.nil_append, List.map_cons, List.cons_append, List.cons.injEq] at h
      exact absurd (List.mem_cons.2 (Or.inl (UInt8.toBitVec_inj.1 (by rw [h.1]; rfl)))) ha
    | cons y b =>
      simp only [List.map_cons, List.cons_append, List.cons.injEq] at h
      obtain ⟨h1, h2⟩ := ih (fun h => ha (List.mem_cons_of_mem _ h)) (fun h => hb (List.mem_cons_of_mem _ h)) h.2
      exact ⟨by rw [h1, UInt8.toBitVec_inj.1 h.1], h2⟩

/-- **C21**, different configurations have different texts (what remains is MD5): the size of `R` and the list of solver
numbers and names, in order of registration, can be read back -/
theorem C21_message_determines_configuration (z z' : Int) (L L' : List (Int × List UInt8)) (hz : -2 ^ 31 ≤ z ∧ z < 2 ^ 31) (hz' : -2 ^ 31 ≤ z' ∧ z' < 2 ^ 31)
    (hL : ∀ d ∈ L, (-2 ^ 31 ≤ d.1 ∧ d.1 < 2 ^ 31) ∧ (0 : UInt8) ∉ d.2) (hL' : ∀ d ∈ L', (-2 ^ 31 ≤ d.1 ∧ d.1 < 2 ^ 31) ∧ (0 : UInt8) ∉ d.2)
    (h : configMessage z L = configMessage z' L') : z = z' ∧ L = L' := by
  unfold configMessage at h
  obtain ⟨h1, h2⟩ := List.append_inj h (by simp [le4])
  refine ⟨le4_inj hz hz' h1, ?_⟩
  clear h h1
  induction L generalizing L' with
  | nil =>
    cases L' with
    | nil => rfl
    | cons d L' => simp [le4] at h2
  | cons d L ih =>
    cases L' with
    | nil => simp [le4] at h2
    | cons d' L' =>
      simp only [List.map_cons, List.flatten_cons, List.append_assoc] at h2
      obtain ⟨a1, a2⟩ := List.append_inj h2 (by simp [le4])
      obtain ⟨b1, b2⟩ := hL d (List.mem_cons_self ..)
      obtain ⟨c1, c2⟩ := hL' d' (List.mem_cons_self ..)
      simp only [List.singleton_append] at a2
      obtain ⟨e1, e2⟩ := nul_split b2 c2 a2
      rw [ih L' (fun x hx => hL x (List.mem_cons_of_mem _ hx)) (fun x hx => hL' x (List.mem_cons_of_mem _ hx)) e2]
      rw [Prod.ext (le4_inj b1 c1 a1) e1]

/-- **C21.**  If an import succeeds, then the input is: a header that fits this version's header line with exactly this
library's configuration signature, lines each of which names a registered solver (or says that there is no plan), and a
closing parenthesis.  The saved wisdom is then what these lines, read in order, add to it.  (The input must not contain the
value `EOF`; there are fewer than 4095 solvers.) -/
theorem C21_success_means_matching_header_and_known_solvers (env : Env) (hl : env.slvdescs.length < 0xFFF) (st st' : PSt) (ht : TInv env st) (input : List Int)
    (hE : EOF ∉ input) (h : imprt env st (mkScanner input) = some (.ok (true, st'))) :
    ∃ (m : MSig) (header fin rest : List Int) (lines : List (List Int × Entry)),
      input = header ++ ((lines.map Prod.fst).flatten ++ (fin ++ rest)) ∧
      signatureOfConfiguration env = some m ∧
      Fits "(fftw-3.3.11 fftw_wisdom #x%M #x%M #x%M #x%M\n".toList [] header [.md5 m.s0, .md5 m.s1, .md5 m.s2, .md5 m.s3] ∧
      Fits ")".toList [] fin [] ∧ (∀ p ∈ lines, LineSays env p.1 p.2) ∧
      (∀ x, x ∈ st'.blessed.contents ↔ x ∈ learnAll {x | x ∈ st.unblessed.contents} {x | x ∈ st.blessed.contents} (lines.map Prod.snd)) ∧ TInv env st' := by
  have hc : Clean (mkScanner input) := by unfold Clean; rw [view_mk]; exact hE
  unfold imprt at h
  split at h
  · simp at h
  · rename_i s0 s1 s2 s3 sc h1
    obtain ⟨hd, k1, k2⟩ := vscan_text _ _ _ _ _ hc h1
    split at h
    · simp at h
    · rename_i m hm
      split at h
      · simp at h
      · rename_i heq
        push Not at heq
        obtain ⟨e0, e1, e2, e3⟩ := heq
        unfold importBody at h
        simp only at h
        split at h
        · simp at h
        · simp at h
        · rename_i st1 sc1 h2
          simp only [Option.some.injEq, Except.ok.injEq, Prod.mk.injEq, true_and] at h
          subst h
          obtain ⟨lines, fin, f1, f2, f3, f4, _, f6⟩ := importLoop_spec hl ht (clean_of_suffix hc k1) h2
          refine ⟨m, hd, fin, sc1.view, lines, ?_, hm, ?_, f2, f3, f6, f4⟩
          · rw [← f1, ← k1, view_mk]
          · rw [e0, e1, e2, e3]; exact k2
        · simp at h
  · simp at h
  · simp at h

theorem fits_lit {c : Char} {fmt : List Char} {maxs t : List Int} {vs : List Scan.Res} (h : Fits (c :: fmt) maxs t vs) (hc : 32 < c.toNat) (h1 : c ≠ '(') (h2 : c ≠ ')')
    (h3 : c ≠ '%') : ∃ t', t = chr c :: t' ∧ Fits fmt maxs t' vs := by
  cases h with
  | blank h => omega
  | paren h => rcases h with rfl | rfl <;> contradiction
  | lit _ h => exact ⟨_, rfl, h⟩
  | str | str0 | dec | hex | md5 => contradiction

theorem fits_lits (w : List Char) {fmt : List Char} {maxs : List Int} {vs : List Scan.Res} (hw : ∀ c ∈ w, 32 < c.toNat ∧ c ≠ '(' ∧ c ≠ ')' ∧ c ≠ '%') :
    ∀ {t : List Int}, Fits (w ++ fmt) maxs t vs → ∃ t', t = w.map chr ++ t' ∧ Fits fmt maxs t' vs := by
  induction w with
  | nil => intro t h; exact ⟨t, rfl, h⟩
  | cons c w ih =>
    intro t h
    obtain ⟨a1, a2, a3, a4⟩ := hw c (List.mem_cons_self ..)
    obtain ⟨t1, b1, b2⟩ := fits_lit h a1 a2 a3 a4
    obtain ⟨t2, c1, c2⟩ := ih (fun c hc => hw c (List.mem_cons_of_mem _ hc)) b2
    exact ⟨t2, by rw [b1, c1]; rfl, c2⟩

/-- **C21**, version: an accepted input starts, up to white space, with `(fftw-3.3.11 fftw_wisdom #x` -/
theorem C21_success_means_this_version (env : Env) (hl : env.slvdescs.length < 0xFFF) (st st' : PSt) (ht : TInv env st) (input : List Int)
    (hE : EOF ∉ input) (h : imprt env st (mkScanner input) = some (.ok (true, st'))) :
    ∃ b0 b1 b2 rest, Blank b0 ∧ Blank b1 ∧ Blank b2 ∧
      input = b0 ++ "(fftw-3.3.11".toList.map chr ++ b1 ++ "fftw_wisdom".toList.map chr ++ b2 ++ "#x".toList.map chr ++ rest := by
  obtain ⟨m, hd, fin, rest, lines, i1, _, i3, _⟩ := C21_success_means_matching_header_and_known_solvers env hl st st' ht input hE h
  have e : "(fftw-3.3.11 fftw_wisdom #x%M #x%M #x%M #x%M\n".toList =
      '(' :: ("fftw-3.3.11".toList ++ (' ' :: ("fftw_wisdom".toList ++ (' ' :: ("#x".toList ++ "%M #x%M #x%M #x%M\n".toList))))) := by decide
  rw [e] at i3
  have : ∀ {c : Char} {fmt : List Char} {t : List Int} {vs : List Scan.Res}, c = ' ' → Fits (c :: fmt) [] t vs → ∃ bl t', Blank bl ∧ t = bl ++ t' ∧ Fits fmt [] t' vs := by
    intro c fmt t vs hc h
    cases h with
    | blank _ h1 h2 => exact ⟨_, _, h1, rfl, h2⟩
    | paren h => subst hc; rcases h with h | h <;> exact absurd h (by decide)
    | lit _ h =>
      subst hc
      exact ⟨[chr ' '], _, by unfold Blank; decide, rfl, h⟩
    | str0 | dec | hex | md5 => exact absurd hc (by decide)
  have hopen : ∃ bl t', Blank bl ∧ hd = bl ++ chr '(' :: t' ∧
      Fits ("fftw-3.3.11".toList ++ (' ' :: ("fftw_wisdom".toList ++ (' ' :: ("#x".toList ++ "%M #x%M #x%M #x%M\n".toList))))) [] t' [.md5 m.s0, .md5 m.s1, .md5 m.s2, .md5 m.s3] := by
    generalize ("fftw-3.3.11".toList ++ (' ' :: ("fftw_wisdom".toList ++ (' ' :: ("#x".toList ++ "%M #x%M #x%M #x%M\n".toList))))) = F at i3 ⊢
    cases i3 with
    | blank h => exact absurd h (by decide)
    | paren _ h1 h2 => exact ⟨_, _, h1, rfl, h2⟩
    | lit _ h => exact ⟨[], _, by simp [Blank], rfl, h⟩
  obtain ⟨b0, t0, p1, p2, p3⟩ := hopen
  obtain ⟨t1, q1, q2⟩ := fits_lits _ (by decide) p3
  obtain ⟨b1, t2, r1, r2, r3⟩ := this rfl q2
  obtain ⟨t3, q3, q4⟩ := fits_lits _ (by decide) r3
  obtain ⟨b2, t4, r4, r5, r6⟩ := this rfl q4
  obtain ⟨t5, q5, q6⟩ := fits_lits _ (by decide) r6
  have e2 : "(fftw-3.3.11".toList.map chr = chr '(' :: "fftw-3.3.11".toList.map chr := by decide
  refine ⟨b0, b1, b2, t5 ++ ((lines.map Prod.fst).flatten ++ (fin ++ rest)), p1, r1, r4, ?_⟩
  rw [i1, p2, q1, r2, q3, r5, q5, e2]
  simp [List.append_assoc]

/-- **C21**, what an entry naming an unknown solver does: if the text after a good header is a line that no registered solver
matches, the import fails (and by C20 changes nothing) -/
theorem C21_unknown_solver_refused (env : Env) (st : PSt) (buf : List Int) (id : Int) (l u tli : ℕ) (sig : MSig)
    (hn : ¬ (upToNul buf = stimeout ∧ id = 0)) (hu : ∀ d ∈ env.slvdescs, ¬ (cstr d.regNam = upToNul buf ∧ d.regId = id)) :
    importEntry env st buf id l u tli sig = .ok none := by
  have hs : slookup env (upToNul buf) id = INFEASIBLE_SLVNDX.toNat := by
    by_contra hne
    obtain ⟨d, h1, h2, h3⟩ := slookup_some hne
    exact hu d (List.mem_of_getElem? h1) ⟨h2, h3⟩
  unfold importEntry
  simp only [if_neg hn, hs, if_true, ite_self]

/-- **C21**, wisdom exported by a library with another configuration signature is refused -/
theorem C21_other_configuration_refused (env env' : Env) (hr : Registry env) (m m' : MSig) (hm : signatureOfConfiguration env = some m)
    (hm' : signatureOfConfiguration env' = some m') (hne : m ≠ m') (st0 st : PSt) (h0 : ∀ x ∈ st0.blessed.contents, Exportable env x) :
    ∃ text, exprt env st0 = some text ∧ imprt env' st (mkScanner text) = some (.ok (false, st)) := by
  obtain ⟨text, h1, sc, h2⟩ := export_header hr hm st0 h0
  refine ⟨text, h1, ?_⟩
  unfold imprt
  rw [h2]
  simp only [hm']
  rw [if_pos]
  by_contra hcon
  push Not at hcon
  obtain ⟨a, b, c, d⟩ := hcon
  apply hne
  cases m; cases m'
  simp_all

/-! ### C19 -/

/-- whenever one fact of the list makes another superfluous, both are plans.  (A table in which no fact makes another
superfluous, as kernel/planner.c:381 asserts, is consistent.) -/
def Consistent (es : List Entry) : Prop :=
  es.Pairwise fun a b => (Answers a b.s b.l b.u b.tli ∨ Answers b a.s a.l a.u a.tli) → a.slvndx ≠ 0xFFF ∧ b.slvndx ≠ 0xFFF

theorem Answers.trans {a b : Entry} {s : MSig} {l u : BitVec 20} {tli : BitVec 9} (h : Answers a b.s b.l b.u b.tli) (h' : Answers b s l u tli)
    (ha : a.slvndx ≠ 0xFFF) (hb : b.slvndx ≠ 0xFFF) : Answers a s l u tli ∧ Incl a.u b.u := by
  unfold Answers at *
  rw [if_neg ha] at h ⊢
  rw [if_neg hb] at h'
  exact ⟨⟨h.1.trans h'.1, fun i hi hx => h'.2.1 i hi (h.2.1 i hi hx), fun i hi hx => h.2.2 i hi (h'.2.2 i hi hx)⟩, h.2.1⟩

theorem Answers.self (a : Entry) : Answers a a.s a.l a.u a.tli := by
  unfold Answers
  refine ⟨rfl, ?_⟩
  split
  · exact ⟨fun _ _ h => h, le_rfl⟩
  · exact ⟨fun _ _ h => h, fun _ _ h => h⟩

/-- what is learned from a consistent list, starting from nothing: facts of the list, and for each fact of the list one at
least as good -/
theorem learnAll_spec (es : List Entry) : ∀ (pre : List Entry) (W : Set Entry), Consistent (pre ++ es) → (∀ x ∈ W, x ∈ pre) →
    (∀ x ∈ pre, ∃ y ∈ W, Answers y x.s x.l x.u x.tli ∧ (y = x ∨ y.slvndx ≠ 0xFFF ∧ x.slvndx ≠ 0xFFF)) →
    (∀ x ∈ learnAll ∅ W es, x ∈ pre ++ es) ∧
    (∀ x ∈ pre ++ es, ∃ y ∈ learnAll ∅ W es, Answers y x.s x.l x.u x.tli ∧ (y = x ∨ y.slvndx ≠ 0xFFF ∧ x.slvndx ≠ 0xFFF)) := by
  induction es with
  | nil => intro pre W _ h1 h2; simpa [learnAll] using ⟨h1, h2⟩
  | cons e es ih =>
    intro pre W hc h1 h2
    have hc' : Consistent ((pre ++ [e]) ++ es) := by simpa using hc
    have hpair : ∀ x ∈ pre, (Answers x e.s e.l e.u e.tli ∨ Answers e x.s x.l x.u x.tli) → x.slvndx ≠ 0xFFF ∧ e.slvndx ≠ 0xFFF := by
      intro x hx
      exact (List.pairwise_append.1 hc).2.2 x hx e (List.mem_cons_self ..)
    have := ih (pre ++ [e]) (learn ∅ W e) hc' ?_ ?_
    · simpa [learnAll] using this
    · intro x hx
      unfold learn at hx
      split at hx
      · exact List.mem_append_left _ (h1 x hx)
      · rcases hx with rfl | hx
        · simp
        · exact List.mem_append_left _ (h1 x hx.1)
    · intro x hx
      unfold learn
      split
      · rename_i hex
        rcases List.mem_append.1 hx with hx | hx
        · exact h2 x hx
        · rw [List.mem_singleton] at hx
          subst hx
          obtain ⟨y, hy | hy, ha⟩ := hex
          · exact ⟨y, hy, ha, Or.inr (hpair y (h1 y hy) (Or.inl ha))⟩
          · exact absurd hy (by simp)
      · rename_i hex
        rcases List.mem_append.1 hx with hx | hx
        · obtain ⟨y, hy, ha, hf⟩ := h2 x hx
          by_cases hk : Answers e y.s y.l y.u y.tli
          · obtain ⟨f1, f2⟩ := hpair y (h1 y hy) (Or.inr hk)
            have hxf : x.slvndx ≠ 0xFFF := by
              rcases hf with rfl | hf
              · exact f1
              · exact hf.2
            exact ⟨e, Or.inl rfl, (Answers.trans hk ha f2 f1).1, Or.inr ⟨f2, hxf⟩⟩
          · exact ⟨y, Or.inr ⟨hy, hk⟩, ha, hf⟩
        · rw [List.mem_singleton] at hx
          subst hx
          exact ⟨x, Or.inl rfl, Answers.self x, Or.inl rfl⟩

/-- nothing is lost if no fact makes another superfluous -/
theorem learnAll_antichain (es : List Entry) (h : es.Pairwise fun a b => ¬ Answers a b.s b.l b.u b.tli ∧ ¬ Answers b a.s a.l a.u a.tli) :
    ∀ (pre : List Entry) (W : Set Entry), (pre ++ es).Pairwise (fun a b => ¬ Answers a b.s b.l b.u b.tli ∧ ¬ Answers b a.s a.l a.u a.tli) →
      (∀ x, x ∈ W ↔ x ∈ pre) → ∀ x, x ∈ learnAll ∅ W es ↔ x ∈ pre ++ es := by
  induction es with
  | nil => intro pre W _ hW x; simpa [learnAll] using hW x
  | cons e es ih =>
    intro pre W hp hW x
    have hpair : ∀ y ∈ pre, ¬ Answers y e.s e.l e.u e.tli ∧ ¬ Answers e y.s y.l y.u y.tli := by
      intro y hy
      exact (List.pairwise_append.1 hp).2.2 y hy e (List.mem_cons_self ..)
    have := ih (List.pairwise_cons.1 h).2 (pre ++ [e]) (learn ∅ W e) (by simpa using hp) (by
      intro y
      unfold learn
      rw [if_neg (by
        rintro ⟨z, hz | hz, ha⟩
        · exact (hpair z ((hW z).1 hz)).1 ha
        · simp at hz)]
      constructor
      · rintro (rfl | hy)
        · simp
        · exact List.mem_append_left _ ((hW y).1 hy.1)
      · intro hy
        rcases List.mem_append.1 hy with hy | hy
        · exact Or.inr ⟨(hW y).2 hy, (hpair y hy).2⟩
        · rw [List.mem_singleton] at hy
          exact Or.inl hy) x
    simpa [learnAll] using this

/-- the saved facts in the order in which they are written -/
def savedFacts (st : PSt) : List Entry := (st.blessed.sols.filter Slot.live).map Slot.entry

/-- **C19.**  Wisdom saved in `st0` can be exported; importing the text into an identically configured library `st` that
knows nothing succeeds.  Afterwards a lookup succeeds exactly if it would succeed in the exporting library, and what it
finds is a fact of the exporting library that answers the question and that none of its facts beats (smaller `u`). -/
theorem C19_same_answers (env : Env) (hr : Registry env) (hlen : (configMessage 8 (registered env)).length < 2 ^ 29)
    (st0 st : PSt) (hi0 : st0.blessed.Inv) (h0 : ∀ x ∈ st0.blessed.contents, Exportable env x) (hcons : Consistent (savedFacts st0))
    (ht : TInv env st) (hb : st.blessed.contents = 0) (hu : st.unblessed.contents = 0) (hsz : (savedFacts st0).length ≤ 2 ^ 31) :
    ∃ text st', exprt env st0 = some text ∧ imprt env st (mkScanner text) = some (.ok (true, st')) ∧ TInv env st' ∧
      ∀ (s : MSig) (f : FlagsT), ∃ r r', htabLookup st0.blessed s f = some r ∧ htabLookup st'.blessed s f = some r' ∧ (r' = none ↔ r = none) ∧
        ∀ x, r' = some x → x.entry ∈ st0.blessed.contents ∧ Answers x.entry s f.l f.u f.tli ∧
          ∀ e ∈ st0.blessed.contents, Answers e s f.l f.u f.tli → Incl e.u x.entry.u → e.u = x.entry.u := by
  obtain ⟨m, hm, _⟩ := C21_signature_is_md5_of_configuration env hlen
  obtain ⟨text, t1, _, t2⟩ := export_import hr hm st0 h0
  have hne : st.blessed.nelem = 0 := by
    rw [ht.b.count]
    have := congrArg Multiset.card hb
    simpa [HTab.contents] using this
  have hfl : (savedFacts st0).length = (st0.blessed.sols.filter Slot.live).length := by simp [savedFacts]
  obtain ⟨st', i1, i2, _, i4⟩ := t2 st ht (by omega)
  have hU : ({x | x ∈ st.unblessed.contents} : Set Entry) = ∅ := by rw [hu]; ext; simp
  have hB : ({x | x ∈ st.blessed.contents} : Set Entry) = ∅ := by rw [hb]; ext; simp
  rw [hU, hB] at i4
  obtain ⟨l1, l2⟩ := learnAll_spec (savedFacts st0) [] ∅ (by simpa using hcons) (by simp) (by simp)
  simp only [List.nil_append] at l1 l2
  have hmem : ∀ e, e ∈ savedFacts st0 ↔ e ∈ st0.blessed.contents := fun e => by simp [savedFacts, HTab.contents]
  refine ⟨text, st', t1, i1, i2, ?_⟩
  intro s f
  obtain ⟨r, k1, k2⟩ := htabLookup_ans hi0 s f
  obtain ⟨r', k3, k4, k5⟩ := htabLookup_spec i2.b s f
  have ans' : (∃ x ∈ st'.blessed.contents, Answers x s f.l f.u f.tli) ↔ ∃ x ∈ st0.blessed.contents, Answers x s f.l f.u f.tli := by
    constructor
    · rintro ⟨x, hx, ha⟩
      exact ⟨x, (hmem x).1 (l1 x ((i4 x).1 hx)), ha⟩
    · rintro ⟨x, hx, ha⟩
      obtain ⟨y, hy, ha', hf⟩ := l2 x ((hmem x).2 hx)
      rcases hf with rfl | ⟨f1, f2⟩
      · exact ⟨y, (i4 y).2 hy, ha⟩
      · exact ⟨y, (i4 y).2 hy, (Answers.trans ha' ha f1 f2).1⟩
  obtain ⟨r2, k3', k6⟩ := htabLookup_ans i2.b s f
  rw [k3] at k3'
  simp only [Option.some.injEq] at k3'
  subst k3'
  refine ⟨r, r', k1, k3, ?_, ?_⟩
  · rw [ans', ← k2] at k6
    clear hlen hsz
    have hiff : r'.isSome = r.isSome := Bool.eq_iff_iff.2 k6
    rw [← Option.isNone_iff_eq_none, ← Option.isNone_iff_eq_none, ← Option.not_isSome, ← Option.not_isSome, hiff]
  · intro x hx
    obtain ⟨x1, x2, x3⟩ := k4 x hx
    obtain ⟨x4, x5⟩ := cand_iff.1 x2
    refine ⟨(hmem _).1 (l1 _ ((i4 _).1 (mem_contents.2 ⟨x, x1, x4, rfl⟩))), x5, ?_⟩
    intro e he ha hl
    obtain ⟨y, hy, ha', hf⟩ := l2 e ((hmem e).2 he)
    obtain ⟨z, z1, z2, z3⟩ := mem_contents.1 ((i4 y).2 hy)
    rcases hf with rfl | ⟨f1, f2⟩
    · have := x3 z z1 (cand_iff.2 ⟨z2, by rw [z3]; exact ha⟩) (by rw [LEQ_iff]; rw [← z3] at hl; exact hl)
      rw [← z3]; exact this
    · obtain ⟨ha2, hi⟩ := Answers.trans ha' ha f1 f2
      have hzx : Incl y.u x.entry.u := fun i hi' h => hl i hi' (hi i hi' h)
      have := x3 z z1 (cand_iff.2 ⟨z2, by rw [z3]; exact ha2⟩) (by rw [LEQ_iff]; rw [← z3] at hzx; exact hzx)
      have hyx : y.u = x.entry.u := by rw [← z3]; exact this
      rw [← hyx] at hl ⊢
      exact LEQ_antisymm ((LEQ_iff _ _).2 hl) ((LEQ_iff _ _).2 hi)

/-- **C19**, exactly: if no saved fact makes another superfluous, the importing library has afterwards exactly the facts of
the exporting one, and nothing else of it has changed.  The text may have passed through a C string. -/
theorem C19_same_facts (env : Env) (hr : Registry env) (hlen : (configMessage 8 (registered env)).length < 2 ^ 29)
    (st0 st : PSt) (h0 : ∀ x ∈ st0.blessed.contents, Exportable env x)
    (hanti : (savedFacts st0).Pairwise fun a b => ¬ Answers a b.s b.l b.u b.tli ∧ ¬ Answers b a.s a.l a.u a.tli)
    (ht : TInv env st) (hb : st.blessed.contents = 0) (hu : st.unblessed.contents = 0) (hsz : (savedFacts st0).length ≤ 2 ^ 31) :
    ∃ text s st', exprt env st0 = some text ∧ exportToString text = some (s.map (fun c : UInt8 => some (c.toNat : Int))) ∧
      importFromString env st s = some (.ok (true, st')) ∧ imprt env st (mkScanner text) = some (.ok (true, st')) ∧
      st' = { st with blessed := st'.blessed } ∧ ∀ e, e ∈ st'.blessed.contents ↔ e ∈ st0.blessed.contents := by
  obtain ⟨m, hm, _⟩ := C21_signature_is_md5_of_configuration env hlen
  obtain ⟨text, t1, ta, t2⟩ := export_import hr hm st0 h0
  have hne : st.blessed.nelem = 0 := by
    rw [ht.b.count]
    have := congrArg Multiset.card hb
    simpa [HTab.contents] using this
  have hfl : (savedFacts st0).length = (st0.blessed.sols.filter Slot.live).length := by simp [savedFacts]
  obtain ⟨st', i1, i2, i3, i4⟩ := t2 st ht (by omega)
  have hU : ({x | x ∈ st.unblessed.contents} : Set Entry) = ∅ := by rw [hu]; ext; simp
  have hB : ({x | x ∈ st.blessed.contents} : Set Entry) = ∅ := by rw [hb]; ext; simp
  rw [hU, hB] at i4
  have hall := learnAll_antichain (savedFacts st0) hanti [] ∅ (by simpa using hanti) (by simp)
  have hbytes : ∀ l : List Int, (∀ c ∈ l, 0 < c ∧ c < 128) → ∃ s : List UInt8, l = s.map (fun c : UInt8 => (c.toNat : Int)) ∧ ∀ c ∈ s, c ≠ 0 ∧ c.toNat < 128 := by
    intro l
    induction l with
    | nil => intro _; exact ⟨[], rfl, by simp⟩
    | cons a l ih =>
      intro h
      obtain ⟨s, h1, h2⟩ := ih (fun c hc => h c (List.mem_cons_of_mem _ hc))
      obtain ⟨a1, a2⟩ := h a (List.mem_cons_self ..)
      have hn : (UInt8.ofNat a.toNat).toNat = a.toNat := by
        rw [UInt8.toNat_ofNat']
        exact Nat.mod_eq_of_lt (by omega)
      refine ⟨UInt8.ofNat a.toNat :: s, ?_, ?_⟩
      · rw [List.map_cons, ← h1, hn]
        congr 1
        omega
      · intro c hc
        rcases List.mem_cons.1 hc with rfl | hc
        · refine ⟨?_, by omega⟩
          intro h0
          rw [h0] at hn
          simp at hn
          omega
        · exact h2 c hc
  obtain ⟨s, s1, s2⟩ := hbytes text ta
  have hstr : strInput (s ++ [0]) = text := by
    unfold strInput
    rw [List.takeWhile_append_of_pos (by intro c hc; simpa using (s2 c hc).1)]
    simp only [ne_eq, decide_not, List.takeWhile_cons, decide_true, Bool.not_true, Bool.false_eq_true, if_false, List.append_nil]
    rw [s1]
    apply List.map_congr_left
    intro c hc
    rw [if_pos (s2 c hc).2]
  refine ⟨text, s ++ [0], st', t1, ?_, ?_, i1, i3, ?_⟩
  · rw [exportToString_some, s1]
    simp
  · unfold importFromString
    rw [hstr]
    exact i1
  · intro e
    rw [i4, show List.map Slot.entry (List.filter Slot.live st0.blessed.sols) = savedFacts st0 from rfl, hall]
    simp [savedFacts, HTab.contents]

/-! ### C18: export -/

/-- **C18**, export writes no entries once everything is forgotten: the text is the header and the closing parenthesis -/
theorem C18_export_after_forget (env : Env) (st : PSt) : ∃ st', forget st .everything = .ok st' ∧
    ∀ m, signatureOfConfiguration env = some m → exprt env st' =
      (vprint headerFmt [.md5 m.s0, .md5 m.s1, .md5 m.s2, .md5 m.s3]).map (· ++ [chr ')', chr '\n']) := by
  obtain ⟨st', h1, h2, h3, _⟩ := C18_forget_everything st
  refine ⟨st', h1, ?_⟩
  intro m hm
  have hd : st'.blessed.sols.filter Slot.live = [] := by
    have := congrArg Multiset.card h3
    simpa [HTab.contents] using this
  have he : vprint ")\n".toList [] = some [chr ')', chr '\n'] := by decide
  unfold exprt
  rw [hm]
  simp only [Option.bind_eq_bind, Option.bind_some]
  rw [exportLoop_dead _ hd, he]
  cases vprint headerFmt [.md5 m.s0, .md5 m.s1, .md5 m.s2, .md5 m.s3] <;> simp

/-! ### non-vacuity: two solvers, three facts (two plans, one time-out) -/

def wEnv : Env where
  slvdescs := [⟨⟨fun _ _ => .nada⟩, .dft, [102, 102, 116], 0⟩, ⟨⟨fun _ _ => .nada⟩, .dft, [102, 102, 116], 1⟩]
  sigOf _ _ := ⟨1, 2, 3, 4⟩
  world := ⟨fun _ => false, fun _ => 7, fun _ => false, fun _ => 0, fun _ => false, fun _ _ _ => true, fun _ _ => false⟩

def wFacts : List Entry := [⟨⟨1, 2, 3, 4⟩, 0x1000, 0x3000, 0, 1⟩, ⟨⟨9, 2, 3, 0xFFFFFFFF⟩, 0, 0x1000, 0, 0⟩, ⟨⟨7, 7, 7, 7⟩, 0x1000, 0x1000, 5, 0xFFF⟩]

def wSt (b u : HTab) : PSt := ⟨b, u, ⟨0x1000, 0x1000, 0, 0⟩, 1, .normal, false, false, 0, 0, 0, 0⟩

theorem wEnv_registry : Registry wEnv where
  len := by decide
  name := by decide
  id := by decide
  distinct := by
    intro i j d d' hi hj h1 h2
    have : ∀ (k : ℕ) (e : SlvDesc), wEnv.slvdescs[k]? = some e → (e.regId : Int) = k := by
      intro k e hk
      match k with
      | 0 => simp [wEnv] at hk; subst hk; rfl
      | 1 => simp [wEnv] at hk; subst hk; rfl
      | k + 2 => simp [wEnv] at hk
    have a := this i d hi
    have b := this j d' hj
    omega
  notTimeout := by decide

/-- all hypotheses of the C19 theorems are met -/
theorem wSt_exists : ∃ st0 st : PSt, Registry wEnv ∧ (configMessage 8 (registered wEnv)).length < 2 ^ 29 ∧ st0.blessed.Inv ∧
    (∀ e, e ∈ st0.blessed.contents ↔ e ∈ wFacts) ∧ (∀ x ∈ st0.blessed.contents, Exportable wEnv x) ∧ Consistent (savedFacts st0) ∧
    ((savedFacts st0).Pairwise fun a b => ¬ Answers a b.s b.l b.u b.tli ∧ ¬ Answers b a.s a.l a.u a.tli) ∧
    TInv wEnv st ∧ st.blessed.contents = 0 ∧ st.unblessed.contents = 0 ∧ (savedFacts st0).length ≤ 2 ^ 31 := by
  obtain ⟨t, h1, h2, h3, h4⟩ := runHistory_spec wFacts (by decide)
  obtain ⟨t0, g1, g2, g3, _⟩ := mkhashtab_spec
  have hne : wFacts.Pairwise fun a b => a.s ≠ b.s := by decide
  have hrec : ∀ e, e ∈ recordAll wFacts ↔ e ∈ wFacts := by
    have hA : ∀ a b : Entry, a.s ≠ b.s → ¬ Answers a b.s b.l b.u b.tli := fun a b h h' => h h'.1
    have : ∀ (l : List Entry) (W : Set Entry), (∀ x ∈ W, ∀ y ∈ l, y.s ≠ x.s) → l.Pairwise (fun a b => a.s ≠ b.s) →
        ∀ e, e ∈ l.foldl record W ↔ e ∈ W ∨ e ∈ l := by
      intro l
      induction l with
      | nil => intro W _ _ e; simp
      | cons a l ih =>
        intro W hW hl e
        rw [List.foldl_cons, ih _ _ (List.pairwise_cons.1 hl).2]
        · have hrc : ∀ x, x ∈ record W a ↔ x = a ∨ x ∈ W := by
            intro x
            unfold record
            simp only [Set.mem_insert_iff, Set.mem_setOf_eq]
            constructor
            · rintro (h | h)
              · exact Or.inl h
              · exact Or.inr h.1
            · rintro (h | h)
              · exact Or.inl h
              · exact Or.inr ⟨h, hA _ _ (hW x h a (List.mem_cons_self ..))⟩
          rw [hrc, List.mem_cons]
          tauto
        · intro x hx y hy
          unfold record at hx
          rcases hx with rfl | hx
          · exact ((List.pairwise_cons.1 hl).1 y hy).symm
          · exact hW x hx.1 y (List.mem_cons_of_mem _ hy)
    intro e
    rw [recordAll, this wFacts ∅ (by simp) hne]
    simp
  have hmem : ∀ e, e ∈ t.contents ↔ e ∈ wFacts := fun e => by rw [h3, hrec]
  have hmem' : ∀ e, e ∈ savedFacts (wSt t t0) ↔ e ∈ wFacts := fun e => by rw [← hmem]; simp [savedFacts, HTab.contents, wSt]
  have hlen : (savedFacts (wSt t t0)).length ≤ wFacts.length := by
    have : (savedFacts (wSt t t0)).length = t.nelem := by
      rw [h2.count]; simp [savedFacts, wSt]
    omega
  have hperm : wFacts.Perm (savedFacts (wSt t t0)) :=
    (List.subperm_of_subset (by decide) (fun e he => (hmem' e).2 he)).perm_of_length_le hlen
  have hp : (savedFacts (wSt t t0)).Pairwise fun a b => a.s ≠ b.s := (hperm.pairwise_iff (fun h => h.symm)).1 hne
  refine ⟨wSt t t0, wSt t0 t0, wEnv_registry, by decide, h2, hmem, ?_, ?_, ?_, ⟨g2, g2, ?_, ?_⟩, g3, g3, ?_⟩
  · intro x hx
    rw [show (wSt t t0).blessed = t from rfl, hmem] at hx
    have hall : ∀ e ∈ wFacts, e.s.s0 < 2 ^ 32 ∧ e.s.s1 < 2 ^ 32 ∧ e.s.s2 < 2 ^ 32 ∧ e.s.s3 < 2 ^ 32 ∧ (e.slvndx = 0xFFF ∨ e.slvndx.toNat < 2 ∧ e.tli = 0) := by decide
    exact hall x hx
  · refine hp.imp ?_
    rintro a b hab (h | h)
    · exact absurd h.1 hab
    · exact absurd h.1.symm hab
  · refine hp.imp ?_
    intro a b hab
    exact ⟨fun h => hab h.1, fun h => hab h.1.symm⟩
  · intro e (he : e ∈ t0.contents); rw [g3] at he; simp at he
  · intro e (he : e ∈ t0.contents); rw [g3] at he; simp at he
  · exact le_trans hlen (by decide)

/-- an import that succeeds and one that fails -/
example : ∃ st : PSt, TInv wEnv st ∧ ∃ text, exprt wEnv st = some text ∧ (∃ st', imprt wEnv st (mkScanner text) = some (.ok (true, st'))) ∧
    imprt wEnv st (mkScanner []) = some (.ok (false, st)) := by
  obtain ⟨t0, g1, g2, g3, g4⟩ := mkhashtab_spec
  obtain ⟨m, hm, _⟩ := C21_signature_is_md5_of_configuration wEnv (by decide)
  have hsz : t0.nelem = (t0.sols.filter Slot.live).length := g2.count
  have ht : TInv wEnv (wSt t0 t0) := ⟨g2, g2, by intro e (he : e ∈ t0.contents); rw [g3] at he; simp at he, by intro e (he : e ∈ t0.contents); rw [g3] at he; simp at he⟩
  obtain ⟨text, k1, _, k3⟩ := export_import wEnv_registry hm (wSt t0 t0) (by intro x hx; rw [show (wSt t0 t0).blessed = t0 from rfl, g3] at hx; simp at hx)
  obtain ⟨st', k4, _⟩ := k3 (wSt t0 t0) ht (by show t0.nelem + (t0.sols.filter Slot.live).length ≤ _; omega)
  refine ⟨wSt t0 t0, ht, text, k1, ⟨st', k4⟩, ?_⟩
  have : (vscan (mkScanner []) headerFmt []).map (fun r => r.1) = some false := by decide +kernel
  unfold imprt
  cases hv : vscan (mkScanner []) headerFmt [] with
  | none => rw [hv] at this; simp at this
  | some r =>
    obtain ⟨b, vs, sc⟩ := r
    rw [hv] at this
    simp only [Option.map_some, Option.some.injEq] at this
    subst this
    rfl

end FFTW.Planner
