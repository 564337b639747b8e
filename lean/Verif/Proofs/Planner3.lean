import Verif.Proofs.Planner2
import Verif.Proofs.Htab

/-! No undefined behaviour inside the planner; the tables stay well-formed. -/

namespace FFTW.Planner

/-- every entry of the table names a registered solver or is infeasible -/
def HTab.Known (t : HTab) (n : ℕ) : Prop := ∀ e ∈ t.contents, e.slvndx = INFEASIBLE_SLVNDX ∨ e.slvndx.toNat < n

/-- well-formed planner -/
structure TInv (env : Env) (st : PSt) : Prop where
  b : st.blessed.Inv
  u : st.unblessed.Inv
  bk : st.blessed.Known env.slvdescs.length
  uk : st.unblessed.Known env.slvdescs.length

/-- no undefined behaviour, and the result is a well-formed planner with an answer satisfying `Q` -/
def SafeR (env : Env) {α : Type} (Q : α → Prop) : Res (α × PSt) → Prop
  | .ok (a, st) => TInv env st ∧ Q a
  | .error e => e ≠ .ub

/-- `rec` is safe -/
def RecSafe (env : Env) (rec : Rec) : Prop := ∀ p st, TInv env st → SafeR env (fun _ => True) (rec p st)

theorem TInv.tables {env : Env} {st st' : PSt} (h : TInv env st) (hb : st'.blessed = st.blessed) (hu : st'.unblessed = st.unblessed) : TInv env st' :=
  ⟨by rw [hb]; exact h.b, by rw [hu]; exact h.u, by rw [hb]; exact h.bk, by rw [hu]; exact h.uk⟩

theorem mkplanFD_safe {env : Env} {rec : Rec} (hr : RecSafe env rec) (p : Problem) (m : FMod) {st : PSt} (h : TInv env st) :
    SafeR env (fun _ => True) (mkplanFD rec p m st) := by
  unfold mkplanFD
  simp only
  split
  · exact hr p _ (h.tables rfl rfl)
  · have := hr p { st with nthr := m.nthr.getD st.nthr, flags := { st.flags with
      l := (st.flags.l &&& ~~~ m.ureset) ||| m.lset
      u := (st.flags.u &&& ~~~ m.ureset) ||| (m.uset ||| m.lset) } } (h.tables rfl rfl)
    revert this
    cases rec p { st with nthr := m.nthr.getD st.nthr, flags := { st.flags with
      l := (st.flags.l &&& ~~~ m.ureset) ||| m.lset
      u := (st.flags.u &&& ~~~ m.ureset) ||| (m.uset ||| m.lset) } } with
    | error e => intro h; exact h
    | ok x => intro h; exact ⟨h.1.tables rfl rfl, trivial⟩

theorem runMk_safe {env : Env} {rec : Rec} (hr : RecSafe env rec) {α : Type} (t : Mk α) : ∀ {st : PSt}, TInv env st →
    SafeR env (fun _ => True) (runMk rec t st) := by
  induction t with
  | ret a => intro st h; exact ⟨h, trivial⟩
  | plan p m k ih =>
    intro st h
    rw [runMk]
    have := mkplanFD_safe hr p m h
    revert this
    cases mkplanFD rec p m st with
    | error e => intro h; exact h
    | ok x => intro h; exact ih x.1 h.1

theorem invokeSolver_safe {env : Env} {rec : Rec} (hr : RecSafe env rec) (p : Problem) (s : Solver) (f : FlagsT) {st : PSt} (h : TInv env st) :
    SafeR env (fun _ => True) (invokeSolver rec env p s f st) := by
  unfold invokeSolver
  simp only [bind, Except.bind]
  have := runMk_safe hr (s.mkplan p { st with flags := { f with tli := 0 } : PSt}.seen) (st := { st with flags := { f with tli := 0 } }) (h.tables rfl rfl)
  revert this
  cases runMk rec (s.mkplan p { st with flags := { f with tli := 0 } : PSt}.seen) { st with flags := { f with tli := 0 } } with
  | error e => intro h; exact h
  | ok x => intro h; exact ⟨h.1.tables rfl rfl, trivial⟩

/-- a found plan comes with the index of a registered solver -/
def FoundOk (env : Env) (b : Found) : Prop := ∀ x, b = some x → x.2 < env.slvdescs.length

theorem search0Loop_safe {env : Env} {rec : Rec} (hr : RecSafe env rec) (p : Problem) (f : FlagsT) (L : List ℕ) (hL : ∀ i ∈ L, i < env.slvdescs.length) :
    ∀ {best : Found} {nt : Bool} {st : PSt}, FoundOk env best → TInv env st → SafeR env (FoundOk env) (search0Loop rec env p f L best nt st) := by
  induction L with
  | nil => intro best nt st hb h; exact ⟨h, hb⟩
  | cons i L ih =>
    intro best nt st hb h
    have hi := hL i (List.mem_cons_self ..)
    rw [search0Loop, List.getElem?_eq_getElem hi]
    simp only
    have := invokeSolver_safe hr p (env.slvdescs[i]).slv f h
    revert this
    cases invokeSolver rec env p (env.slvdescs[i]).slv f st with
    | error e => intro h; exact h
    | ok x =>
      obtain ⟨pln, st1⟩ := x
      intro h1
      simp only
      have h2 : TInv env (if st1.needCheck then timeoutP env st1 else (false, st1)).2 := by
        split
        · obtain ⟨_, _, _, _, _, e1, e2⟩ := timeoutP_spec env st1
          exact h1.1.tables e1 e2
        · exact h1.1
      generalize (if st1.needCheck then timeoutP env st1 else (false, st1)) = T at h2
      obtain ⟨late, st2⟩ := T
      simp only at h2 ⊢
      split
      · exact ⟨h2, fun x hx => by simp at hx⟩
      · cases pln with
        | none => exact ih (fun j hj => hL j (List.mem_cons_of_mem _ hj)) hb h2
        | some pln =>
          simp only
          obtain ⟨c1, _, _, _, c5, c6⟩ := consider_spec env best nt pln i st2
          have hf : FoundOk env (some (consider env best nt pln i st2).1) := by
            intro x hx
            obtain rfl := Option.some.inj hx
            rcases c1 with ⟨_, c⟩ | ⟨b, j, hbj, _, c⟩
            · rw [c]; exact hi
            · rw [c]; exact hb _ hbj
          split
          · exact ⟨h2.tables c5 c6, hf⟩
          · exact ih (fun j hj => hL j (List.mem_cons_of_mem _ hj)) hf (h2.tables c5 c6)

theorem solversOfKind_lt (env : Env) (k : PKind) : ∀ i ∈ solversOfKind env k, i < env.slvdescs.length := by
  intro i hi
  simp only [solversOfKind, List.mem_filter, List.mem_reverse, List.mem_range] at hi
  exact hi.1

theorem search0_safe {env : Env} {rec : Rec} (hr : RecSafe env rec) (p : Problem) (f : FlagsT) {st : PSt} (h : TInv env st) :
    SafeR env (FoundOk env) (search0 rec env p f st) := by
  unfold search0
  obtain ⟨_, _, _, _, _, e1, e2⟩ := timeoutP_spec env st
  simp only
  split
  · exact ⟨h.tables e1 e2, fun x hx => by simp at hx⟩
  · exact search0Loop_safe hr p f _ (solversOfKind_lt env _) (fun x hx => by simp at hx) (h.tables e1 e2)

/-- `SafeR` for the results of `search` -/
def SafeS (env : Env) {β : Type} : Res (Found × β × PSt) → Prop
  | .ok (b, _, st) => TInv env st ∧ FoundOk env b
  | .error e => e ≠ .ub

theorem searchLoop_safe {env : Env} {rec : Rec} (hr : RecSafe env rec) (p : Problem) (lorig : BitVec 20) (R : List (BitVec 20)) :
    ∀ {x : BitVec 20} {lastX : Option (BitVec 20)} {f : FlagsT} {st : PSt}, TInv env st →
      (match searchLoop rec env p lorig R x lastX f st with
       | .ok (b, _, _, st) => TInv env st ∧ FoundOk env b
       | .error e => e ≠ .ub) := by
  induction R with
  | nil => intro x lastX f st h; exact ⟨h, fun x hx => by simp at hx⟩
  | cons q R ih =>
    intro x lastX f st h
    rw [searchLoop]
    simp only
    generalize (if LEQ lorig (x &&& ~~~ q) then x &&& ~~~ q else x) = y
    by_cases hy : lastX ≠ some y
    · rw [if_pos hy]
      have := search0_safe hr p { f with l := y } h
      revert this
      cases search0 rec env p { f with l := y } st with
      | error e => intro h; exact h
      | ok z =>
        obtain ⟨b, st1⟩ := z
        intro h
        cases b with
        | some b => exact ⟨h.1, h.2⟩
        | none => exact ih h.1
    · rw [if_neg hy]; exact ih h

theorem search_safe {env : Env} {rec : Rec} (hr : RecSafe env rec) (p : Problem) (f : FlagsT) {st : PSt} (h : TInv env st) :
    (match search rec env p f st with
     | .ok (b, _, st) => TInv env st ∧ FoundOk env b
     | .error e => e ≠ .ub) := by
  unfold search
  simp only [bind, Except.bind]
  have := searchLoop_safe hr p f.l relaxTab (x := f.u) (lastX := none) (f := f) h
  revert this
  cases searchLoop rec env p f.l relaxTab f.u none f st with
  | error e => intro h; exact h
  | ok z =>
    obtain ⟨b, f1, lx, st1⟩ := z
    intro h1
    cases b with
    | some b => exact h1
    | none =>
      simp only
      by_cases hx : lx ≠ some f.l
      · rw [if_pos hx]
        have := search0_safe hr p { f1 with l := f.l } h1.1
        revert this
        cases search0 rec env p { f1 with l := f.l } st1 with
        | error e => intro h; exact h
        | ok z => intro h; exact ⟨h.1, h.2⟩
      · rw [if_neg hx]; exact h1

theorem Known_insert {t t' : HTab} {n : ℕ} {s : MSig} {f : FlagsT} {i : BitVec 12} (hk : t.Known n) (hi : i = INFEASIBLE_SLVNDX ∨ i.toNat < n)
    (hc : t'.contents = mkEntry s f i ::ₘ t.contents.filter (fun e => ¬ e.doomed s f i = true)) : t'.Known n := by
  intro e he
  rw [hc, Multiset.mem_cons] at he
  rcases he with rfl | he
  · exact hi
  · exact hk e (Multiset.mem_filter.1 he).1

theorem hinsert_safe {env : Env} {st : PSt} (h : TInv env st) (s : MSig) (f : FlagsT) {i : BitVec 12} (hi : i = INFEASIBLE_SLVNDX ∨ i.toNat < env.slvdescs.length) :
    (match hinsert st s f i with
     | .ok st' => TInv env st'
     | .error e => e ≠ .ub) := by
  unfold hinsert
  by_cases hb : bliss f ≠ 0
  · rw [if_pos hb]
    by_cases hm : st.blessed.nelem ≥ 2 ^ 31
    · rw [if_pos hm]; simp
    · rw [if_neg hm]
      obtain ⟨t', e1, e2, e3, _⟩ := htabInsert_spec h.b (by omega) s f i
      rw [e1]
      exact ⟨e2, h.u, Known_insert h.bk hi e3, h.uk⟩
  · rw [if_neg hb]
    by_cases hm : st.unblessed.nelem ≥ 2 ^ 31
    · rw [if_pos hm]; simp
    · rw [if_neg hm]
      obtain ⟨t', e1, e2, e3, _⟩ := htabInsert_spec h.u (by omega) s f i
      rw [e1]
      exact ⟨h.b, e2, h.bk, Known_insert h.uk hi e3⟩

theorem skipSearch_safe {env : Env} (hlen : env.slvdescs.length ≤ 4095) {st : PSt} (h : TInv env st) (m : MSig) (f : FlagsT) {b : Option (Plan × ℕ)} (hb : ∀ x, b = some x → x.2 < env.slvdescs.length) :
    SafeR env (fun _ => True) (skipSearch m f b st) := by
  unfold skipSearch
  split
  · have hi : (slvndxOf b) = INFEASIBLE_SLVNDX ∨
        (slvndxOf b).toNat < env.slvdescs.length := by
      cases b with
      | none => exact Or.inl rfl
      | some x =>
        have := hb x rfl
        right
        simp only [slvndxOf, BitVec.toNat_ofNat]
        rw [Nat.mod_eq_of_lt (by omega)]
        exact this
    have := hinsert_safe h m f hi
    revert this
    simp only [bind, Except.bind]
    cases hinsert st m f (slvndxOf b) with
    | error e => intro h; exact h
    | ok st' => intro h; exact ⟨h, trivial⟩
  · exact ⟨h, trivial⟩

theorem doSearch_safe {env : Env} (hlen : env.slvdescs.length ≤ 4095) {rec : Rec} (hr : RecSafe env rec) (p : Problem) (m : MSig) {st : PSt} (h : TInv env st) :
    SafeR env (fun _ => True) (doSearch rec env p m st) := by
  unfold doSearch
  split
  · exact ⟨h.tables rfl rfl, trivial⟩
  · have := search_safe hr p st.flags h
    revert this
    cases search rec env p st.flags st with
    | error e => intro h; exact h
    | ok z =>
      obtain ⟨b, f, st1⟩ := z
      intro h1
      simp only
      have hbx : ∀ x, (b.map fun x => (x.1.pl, x.2)) = some x → x.2 < env.slvdescs.length := by
        intro x hx
        obtain ⟨y, hy, rfl⟩ := Option.map_eq_some_iff.1 hx
        exact h1.2 y hy
      have hc : TInv env (checkBogosity env p st1).2 := h1.1.tables rfl rfl
      generalize checkBogosity env p st1 = C at hc
      split
      · exact ⟨hc.tables rfl rfl, trivial⟩
      · split
        · split
          · exact skipSearch_safe hlen hc m _ hbx
          · exact ⟨hc, trivial⟩
        · exact skipSearch_safe hlen hc m _ hbx

theorem lookup_mem {t : HTab} (hi : t.Inv) (s : MSig) (f : FlagsT) : ∃ r, htabLookup t s f = some r ∧ ∀ b, r = some b → b.entry ∈ t.contents := by
  obtain ⟨r, h1, h2⟩ := htabLookup_spec hi s f
  refine ⟨r, h1, ?_⟩
  intro b hb
  obtain ⟨g1, g2, _⟩ := h2.1 b hb
  unfold HTab.contents
  rw [Multiset.mem_coe]
  exact List.mem_map.2 ⟨b, List.mem_filter.2 ⟨g1, g2.1⟩, rfl⟩

theorem hlookup_safe {env : Env} {st : PSt} (h : TInv env st) (s : MSig) (f : FlagsT) : ∃ r, hlookup st s f = .ok r ∧
    ∀ b, r = some b → b.slvndx = INFEASIBLE_SLVNDX ∨ b.slvndx.toNat < env.slvdescs.length := by
  obtain ⟨r, h1, h2⟩ := lookup_mem h.b s f
  obtain ⟨r', h1', h2'⟩ := lookup_mem h.u s f
  unfold hlookup
  rw [h1, h1']
  cases r with
  | some b => exact ⟨some b, rfl, fun b' hb' => by obtain rfl := Option.some.inj hb'; exact h.bk _ (h2 b rfl)⟩
  | none => exact ⟨r', rfl, fun b hb => h.uk _ (h2' b hb)⟩

theorem useWisdom_safe {env : Env} (hlen : env.slvdescs.length ≤ 4095) {rec : Rec} (hr : RecSafe env rec) (p : Problem) (m : MSig) {sol : Slot}
    (hsol : sol.slvndx = INFEASIBLE_SLVNDX ∨ sol.slvndx.toNat < env.slvdescs.length) {st : PSt} (h : TInv env st) :
    SafeR env (fun _ => True) (useWisdom rec env p m sol st) := by
  unfold useWisdom
  simp only
  have hds := doSearch_safe hlen hr p m (st := { st with tick := st.tick + 1 }) (h.tables rfl rfl)
  split
  · exact hds
  · split
    · split
      · exact hds
      · exact ⟨h.tables rfl rfl, trivial⟩
    · rename_i hfeas
      have hlt := hsol.resolve_left hfeas
      rw [List.getElem?_eq_getElem hlt]
      simp only
      split
      · exact ⟨h.tables rfl rfl, trivial⟩
      · have := invokeSolver_safe hr p (env.slvdescs[sol.slvndx.toNat]).slv { sol.fl with hi := sol.fl.hi ||| bliss st.flags }
          (st := { st with tick := st.tick + 1, wstate := .only }) (h.tables rfl rfl)
        revert this
        cases invokeSolver rec env p (env.slvdescs[sol.slvndx.toNat]).slv { sol.fl with hi := sol.fl.hi ||| bliss st.flags } { st with tick := st.tick + 1, wstate := .only } with
        | error e => intro h; exact h
        | ok x =>
          obtain ⟨pln, st1⟩ := x
          intro h1
          simp only
          have hc : TInv env (checkBogosity env p st1).2 := h1.1.tables rfl rfl
          generalize checkBogosity env p st1 = C at hc
          split
          · exact ⟨hc.tables rfl rfl, trivial⟩
          · cases pln with
            | none => exact ⟨hc.tables rfl rfl, trivial⟩
            | some b => exact skipSearch_safe hlen (st := { C.2 with wstate := st.wstate }) (hc.tables rfl rfl) m _ (b := some (b.pl, sol.slvndx.toNat)) (fun x hx => by obtain rfl := Option.some.inj hx; exact hlt)

theorem mkplanBody_safe {env : Env} (hlen : env.slvdescs.length ≤ 4095) {rec : Rec} (hr : RecSafe env rec) : RecSafe env (mkplanBody rec env) := by
  intro p st h
  unfold mkplanBody
  simp only
  have h0 : TInv env (if st.estimatep = true then { st with flags := { st.flags with tli := 0 } } else st) := by
    split
    · exact h.tables rfl rfl
    · exact h
  generalize (if st.estimatep = true then { st with flags := { st.flags with tli := 0 } } else st) = st0 at h0
  have hc : TInv env (checkBogosity env p st0).2 := h0.tables rfl rfl
  generalize checkBogosity env p st0 = C at hc
  split
  · exact ⟨hc.tables rfl rfl, trivial⟩
  · have h3 : TInv env { C.2 with timedOut := false, nprob := C.2.nprob + 1 } := hc.tables rfl rfl
    split
    · obtain ⟨r, e1, e2⟩ := hlookup_safe h3 (env.sigOf p C.2.nthr) C.2.flags
      rw [e1]
      cases r with
      | some sol => exact useWisdom_safe hlen hr p _ (e2 sol rfl) h3
      | none => exact doSearch_safe hlen hr p _ h3
    · exact doSearch_safe hlen hr p _ h3

theorem mkplan_safe {env : Env} (hlen : env.slvdescs.length ≤ 4095) (n : ℕ) : RecSafe env (mkplan env n) := by
  induction n with
  | zero => intro p st _; simp [mkplan, SafeR]
  | succ n ih => exact mkplanBody_safe hlen ih

end FFTW.Planner
