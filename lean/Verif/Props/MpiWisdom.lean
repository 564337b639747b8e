import Verif.Spec.MpiWisdom
import Verif.Proofs.MpiWisdom

/-!
# C60: collecting and distributing wisdom over MPI

The calls neither wait forever nor abort, and nothing is lost or invented.
-/

namespace FFTW.Mpi.MWisdom
open FFTW.Planner FFTW.Print WisdomSpec

/-- everything saved by processes of `c` -/
private def allFacts (c : Comm) (sts : PSts) : Set Entry := {e | ∃ w ∈ c, Saved sts w e}

private theorem ready_exp {env : ℕ → Env} {c : Comm} {sts : PSts} (h : Ready env c sts) : ∀ w ∈ c, ∀ e ∈ allFacts c sts, Exportable (env w) e := by
  rintro w hw e ⟨v, hv, he⟩
  have := h.exp v hv e he
  unfold Exportable at this ⊢
  rw [h.same w hw v hv]
  exact this

private theorem ready_group {env : ℕ → Env} {c : Comm} {sts : PSts} (h : Ready env c sts) : Group env (allFacts c sts) c sts :=
  ⟨fun w hw => ⟨h.tables w hw, h.temp w hw, fun _ he => ⟨w, hw, he⟩⟩, h.same, h.reg, h.len, ready_exp h, le_trans h.room (by norm_num)⟩

private theorem compatible {c : Comm} {sts : PSts} (h : NoConflict c sts) : Compatible (allFacts c sts) := by
  rintro a ⟨v, hv, ha⟩ b ⟨w, hw, hb⟩ hne hA
  exact h v hv w hw a b ha hb hne hA

private theorem finds_iff {env : Env} {sts : PSts} {w : ℕ} (ht : TInv env (sts w)) (hu : (sts w).unblessed.contents = 0) (s : MSig) (f : FlagsT) :
    Finds sts w s f ↔ ∃ x, Saved sts w x ∧ Answers x s f.l f.u f.tli := by
  obtain ⟨r, h1, h2⟩ := hlookup_ans ht.b ht.u s f
  have h3 : Finds sts w s f ↔ r.isSome = true := by
    unfold Finds
    rw [h1]
    cases r with
    | none => simp
    | some x => simp
  rw [h3, h2]
  constructor
  · rintro ⟨x, hx | hx, ha⟩
    · exact ⟨x, hx, ha⟩
    · rw [hu] at hx
      exact absurd hx (by simp)
  · rintro ⟨x, hx, ha⟩
    exact ⟨x, Or.inl hx, ha⟩

private theorem cov_answers {y x : Entry} (h : Cov y x) {s : MSig} {l u : BitVec 20} {tli : BitVec 9} (ha : Answers x s l u tli) : Answers y s l u tli := by
  rcases h.2 with rfl | ⟨f1, f2⟩
  · exact ha
  · exact (Answers.trans h.1 ha f1 f2).1

/-- **C60**, `fftw_mpi_gather_wisdom`: it succeeds; only the saved wisdom of the processes taking part changes, and their tables stay well formed; they know nothing that was not known by one of
them before; and if there are no conflicts the first process has an answer afterwards to everything that one of them had an answer to before. -/
theorem C60_gather (env : ℕ → Env) (c : Comm) (sts : PSts) (h : Ready env c sts) :
    ∃ sts', gather env c sts = some (.ok sts') ∧ (∀ w, sts' w = { sts w with blessed := (sts' w).blessed } ∧ (w ∉ c → sts' w = sts w)) ∧
      (∀ w ∈ c, TInv (env w) (sts' w) ∧ ∀ e, Saved sts' w e → ∃ v ∈ c, Saved sts v e) ∧
      (NoConflict c sts → ∀ w ∈ c, ∀ s f, Finds sts w s f → Finds sts' (c.at 0) s f) := by
  obtain ⟨sts', g1, g2⟩ := gather_ok c.length c sts le_rfl h.nonempty h.nodup (ready_group h)
  have m0 : c.at 0 ∈ c := at_mem' (List.length_pos_iff.2 h.nonempty)
  refine ⟨sts', g1, fun w => ⟨g2.only w, g2.out w⟩, fun w hw => ⟨(g2.fine w hw).inv, fun e he => g2.src w hw e he⟩, fun hc w hw s f hf => ?_⟩
  obtain ⟨x, hx, ha⟩ := (finds_iff (h.tables w hw) (h.temp w hw) s f).1 hf
  obtain ⟨y, hy, hyc⟩ := g2.cov (compatible hc) x ⟨w, hw, x, hx, Cov.refl x⟩
  exact (finds_iff (g2.fine _ m0).inv (g2.fine _ m0).temp s f).2 ⟨y, hy, cov_answers hyc ha⟩

private theorem broadcast_ok {env : ℕ → Env} {F : Set Entry} {c : Comm} {sts : PSts} (hc : c ≠ []) (hn : c.Nodup) (hf : ∀ w ∈ c, Fine (env w) F (sts w))
    (hs : ∀ v ∈ c, ∀ w ∈ c, (env v).slvdescs = (env w).slvdescs) (hr : ∀ w ∈ c, Registry (env w)) (hl : ∀ w ∈ c, (configMessage 8 (registered (env w))).length < 2 ^ 29)
    (hx : ∀ w ∈ c, ∀ e ∈ F, Exportable (env w) e) (hroom : ∀ w ∈ c, (sts w).blessed.nelem ≤ 2 ^ 30) :
    ∃ sts', broadcast env c sts = some (.ok sts') ∧ (∀ w, sts' w = { sts w with blessed := (sts' w).blessed } ∧ (w ∉ c → sts' w = sts w)) ∧ sts' (c.at 0) = sts (c.at 0) ∧
      ∀ w ∈ c, Fine (env w) F (sts' w) ∧ (∀ e, Saved sts' w e → Saved sts w e ∨ Saved sts (c.at 0) e) ∧
        (Compatible F → ∀ v, v = w ∨ v = c.at 0 → ∀ s f, Finds sts v s f → Finds sts' w s f) := by
  obtain ⟨r, ws, rfl⟩ := List.exists_cons_of_ne_nil hc
  have hr0 : Comm.at (r :: ws) 0 = r := rfl
  rw [hr0]
  have m0 : r ∈ r :: ws := List.mem_cons_self ..
  have hm : ∀ w ∈ ws, w ∈ r :: ws := fun w hw => List.mem_cons_of_mem _ hw
  obtain ⟨hn1, hn2⟩ := List.nodup_cons.1 hn
  obtain ⟨s, x1, x2⟩ := message_ok (env r) (hr r m0) (hl r m0) (hx r m0) (hf r m0)
  have hb := hroom r m0
  obtain ⟨sts', y1, y2, y3⟩ := importAll_ok x2 ws sts hn2 fun w hw => ⟨hs w (hm w hw) r m0, hf w (hm w hw), by have := hroom w (hm w hw); omega⟩
  refine ⟨sts', ?_, fun w => ⟨?_, fun hw => y2 w fun h => hw (hm w h)⟩, y2 r hn1, fun w hw => ?_⟩
  · unfold broadcast
    rw [hr0, x1, pure_bind', List.tail_cons, y1]
    rfl
  · by_cases hw : w ∈ ws
    · exact (y3 w hw).2.1
    · rw [y2 w hw]
  · rcases List.mem_cons.1 hw with rfl | hw'
    · have e := y2 _ hn1
      refine ⟨by rw [e]; exact hf _ m0, fun e' he => Or.inl (by unfold Saved at he ⊢; rwa [e] at he), fun _ v hv s f hfi => ?_⟩
      obtain rfl : v = w := by rcases hv with h | h <;> exact h
      unfold Finds at hfi ⊢
      rwa [e]
    · obtain ⟨z1, z2, z3, z4⟩ := y3 w hw'
      refine ⟨z1, fun e he => z3 e he, fun hF v hv s f hfi => ?_⟩
      have hvc : v ∈ r :: ws := by
        rcases hv with rfl | rfl
        · exact hw
        · exact m0
      obtain ⟨x, hx', ha⟩ := (finds_iff (hf v hvc).inv (hf v hvc).temp s f).1 hfi
      obtain ⟨y, hy, hyc⟩ := z4 hF x (by
        rcases hv with rfl | rfl
        · exact Or.inl ⟨x, hx', Cov.refl x⟩
        · exact Or.inr ⟨x, hx', Cov.refl x⟩)
      exact (finds_iff z1.inv z1.temp s f).2 ⟨y, hy, cov_answers hyc ha⟩

private theorem nelem_le {env : ℕ → Env} {c : Comm} {sts : PSts} (h : Ready env c sts) : ∀ w ∈ c, (sts w).blessed.nelem ≤ 2 ^ 30 := fun w hw =>
  le_trans (total_ge hw) h.room

/-- **C60**, `fftw_mpi_broadcast_wisdom`: it succeeds; nothing changes for the first process, and for the others only their saved wisdom; a process knows afterwards what it or the first process knew,
and nothing else. -/
theorem C60_broadcast (env : ℕ → Env) (c : Comm) (sts : PSts) (h : Ready env c sts) :
    ∃ sts', broadcast env c sts = some (.ok sts') ∧ (∀ w, sts' w = { sts w with blessed := (sts' w).blessed } ∧ (w ∉ c → sts' w = sts w)) ∧ sts' (c.at 0) = sts (c.at 0) ∧
      (∀ w ∈ c, TInv (env w) (sts' w) ∧ ∀ e, Saved sts' w e → Saved sts w e ∨ Saved sts (c.at 0) e) ∧
      (NoConflict c sts → ∀ w ∈ c, ∀ s f, Finds sts w s f ∨ Finds sts (c.at 0) s f → Finds sts' w s f) := by
  obtain ⟨sts', b1, b2, b3, b4⟩ := broadcast_ok h.nonempty h.nodup (ready_group h).fine h.same h.reg h.len (ready_exp h) (nelem_le h)
  refine ⟨sts', b1, b2, b3, fun w hw => ⟨(b4 w hw).1.inv, (b4 w hw).2.1⟩, fun hc w hw s f hf => ?_⟩
  rcases hf with hf | hf
  · exact (b4 w hw).2.2 (compatible hc) w (Or.inl rfl) s f hf
  · exact (b4 w hw).2.2 (compatible hc) _ (Or.inr rfl) s f hf

/-- **C60**, `fftw_mpi_gather_wisdom` followed by `fftw_mpi_broadcast_wisdom`: every process has an answer to everything that one of them had an answer to, and none knows anything that none of them
knew. -/
theorem C60_gather_then_broadcast (env : ℕ → Env) (c : Comm) (sts : PSts) (h : Ready env c sts) :
    ∃ sts1 sts2, gather env c sts = some (.ok sts1) ∧ broadcast env c sts1 = some (.ok sts2) ∧
      (∀ w ∈ c, TInv (env w) (sts2 w) ∧ ∀ e, Saved sts2 w e → ∃ v ∈ c, Saved sts v e) ∧
      (NoConflict c sts → ∀ v ∈ c, ∀ w ∈ c, ∀ s f, Finds sts v s f → Finds sts2 w s f) := by
  obtain ⟨sts1, g1, g2⟩ := gather_ok c.length c sts le_rfl h.nonempty h.nodup (ready_group h)
  obtain ⟨sts1', g1', _, _, g5⟩ := C60_gather env c sts h
  obtain rfl : sts1' = sts1 := by
    rw [g1] at g1'
    cases g1'
    rfl
  obtain ⟨sts2, b1, b2, b3, b4⟩ := broadcast_ok h.nonempty h.nodup g2.fine h.same h.reg h.len (ready_exp h) fun w hw => le_trans (g2.size w hw) h.room
  refine ⟨sts1', sts2, g1, b1, fun w hw => ⟨(b4 w hw).1.inv, fun e he => (b4 w hw).1.facts e he⟩, fun hc v hv w hw s f hf => ?_⟩
  exact (b4 w hw).2.2 (compatible hc) _ (Or.inr rfl) s f (g5 hc v hv s f hf)

private theorem refused {a b : Env} {st0 : PSt} (hr : Registry a) (hl : (configMessage 8 (registered a)).length < 2 ^ 29) (hx : ∀ e ∈ st0.blessed.contents, Exportable a e)
    (hne : signatureOfConfiguration a ≠ signatureOfConfiguration b) (hb : (configMessage 8 (registered b)).length < 2 ^ 29) :
    ∃ s, sent a st0 = pure s ∧ ∀ st, received b st s = (some (.error .abort) : Option (Except Err PSt)) := by
  obtain ⟨m, hm, _⟩ := C21_signature_is_md5_of_configuration a hl
  obtain ⟨m', hm', _⟩ := C21_signature_is_md5_of_configuration b hb
  obtain ⟨text, t1, ta, _, _⟩ := export_import' hr hm st0 hx
  obtain ⟨s, s1, s2⟩ := cString_text text ta
  refine ⟨s, ?_, fun st => ?_⟩
  · unfold sent
    rw [t1, Option.bind_some, exportToString_some, Option.bind_some, s1]
  · obtain ⟨text', t1', t2'⟩ := C21_other_configuration_refused a b hr m m' hm hm' (fun e => hne (by rw [hm, hm', e])) st0 st hx
    obtain rfl : text = text' := Option.some.inj (t1.symm.trans t1')
    unfold received importFromString
    rw [s2, t2']
    rfl

private theorem importAll_aborts {env : ℕ → Env} {s : List UInt8} : ∀ (ws : List ℕ) (sts : PSts), ws.Nodup →
    (∀ w ∈ ws, (∃ st', received (env w) (sts w) s = pure st') ∨ received (env w) (sts w) s = (some (.error .abort) : Option (Except Err PSt))) →
    (∃ w ∈ ws, received (env w) (sts w) s = (some (.error .abort) : Option (Except Err PSt))) → importAll env s ws sts = (some (.error .abort) : Option (Except Err PSts))
  | [], _, _, _, ⟨w, hw, _⟩ => absurd hw (by simp)
  | v :: ws, sts, hn, hw, hb => by
    obtain ⟨hv, hn⟩ := List.nodup_cons.1 hn
    rw [importAll]
    rcases hw v (List.mem_cons_self ..) with ⟨st', e⟩ | e
    · rw [e, pure_bind']
      have hne : ∀ w ∈ ws, w ≠ v := fun w h e => hv (e ▸ h)
      refine importAll_aborts ws _ hn (fun w h => ?_) ?_
      · simp only [hne w h, if_false]
        exact hw w (List.mem_cons_of_mem _ h)
      · obtain ⟨w, h, hbw⟩ := hb
        rcases List.mem_cons.1 h with rfl | h
        · rw [e] at hbw
          cases hbw
        · refine ⟨w, h, ?_⟩
          simp only [hne w h, if_false]
          exact hbw
    · rw [e]
      rfl

/-- **C60**: wisdom is never mixed up between libraries that are configured differently.  If the configuration signature of a process differs from that of the first, `fftw_mpi_broadcast_wisdom` aborts
the program.  (`good`: the processes configured like the first.) -/
theorem C60_other_configuration_aborts (env : ℕ → Env) (c good : Comm) (sts : PSts) (hn : c.Nodup) (hg : Ready env good sts) (h0 : c.at 0 ∈ good)
    (hb : ∀ w ∈ c, w ∈ good ∨ signatureOfConfiguration (env w) ≠ signatureOfConfiguration (env (c.at 0)) ∧ (configMessage 8 (registered (env w))).length < 2 ^ 29)
    (hex : ∃ w ∈ c, signatureOfConfiguration (env w) ≠ signatureOfConfiguration (env (c.at 0))) :
    broadcast env c sts = some (.error .abort) := by
  obtain ⟨w0, hw0, hne0⟩ := hex
  have hc : c ≠ [] := by rintro rfl; simp at hw0
  obtain ⟨r, ws, rfl⟩ := List.exists_cons_of_ne_nil hc
  have hr0 : Comm.at (r :: ws) 0 = r := rfl
  rw [hr0] at h0 hb hne0
  have G := ready_group hg
  obtain ⟨s, x1, x2⟩ := message_ok (env r) (G.reg r h0) (G.len r h0) (G.exp r h0) (G.fine r h0)
  have key : ∀ w, signatureOfConfiguration (env w) ≠ signatureOfConfiguration (env r) → (configMessage 8 (registered (env w))).length < 2 ^ 29 →
      received (env w) (sts w) s = (some (.error .abort) : Option (Except Err PSt)) := by
    intro w hw hl
    obtain ⟨s', e1, e2⟩ := refused (G.reg r h0) (G.len r h0) (fun e he => G.exp r h0 e ((G.fine r h0).facts e he)) (Ne.symm hw) hl
    obtain rfl : s = s' := by
      rw [x1] at e1
      cases e1
      rfl
    exact e2 _
  have hroom : ∀ w ∈ good, (sts w).blessed.nelem ≤ 2 ^ 30 := nelem_le hg
  have hb0 := hroom r h0
  have hsig : ∀ w ∈ good, signatureOfConfiguration (env w) = signatureOfConfiguration (env r) := by
    intro w hw
    unfold signatureOfConfiguration
    rw [hg.same w hw r h0]
  unfold broadcast
  rw [hr0, x1, pure_bind', List.tail_cons]
  refine importAll_aborts ws sts (List.nodup_cons.1 hn).2 (fun w hw => ?_) ⟨w0, ?_, ?_⟩
  · rcases hb w (List.mem_cons_of_mem _ hw) with h | ⟨h1, h2⟩
    · have := hroom w h
      obtain ⟨st', y, _⟩ := x2 (env w) (sts w) (hg.same w h r h0) (G.fine w h) (by omega)
      exact Or.inl ⟨st', y⟩
    · exact Or.inr (key w h1 h2)
  · rcases List.mem_cons.1 hw0 with rfl | h
    · exact absurd rfl hne0
    · exact h
  · rcases hb w0 hw0 with h | ⟨h1, h2⟩
    · exact absurd (hsig w0 h) hne0
    · exact key w0 h1 h2

/-! ### non-vacuity: three processes -/

private theorem table_of (L : List Entry) (hne : L.Pairwise fun a b => a.s ≠ b.s) (hl : L.length ≤ 2 ^ 60) : ∃ t : HTab, t.Inv ∧ (∀ e, e ∈ t.contents ↔ e ∈ L) ∧ t.nelem ≤ L.length := by
  obtain ⟨t, h1, h2, h3, h4⟩ := runHistory_spec L hl
  refine ⟨t, h2, fun e => ?_, h4⟩
  rw [h3]
  have hA : ∀ a b : Entry, a.s ≠ b.s → ¬ Answers a b.s b.l b.u b.tli := fun a b h h' => h h'.1
  have : ∀ (l : List Entry) (W : Set Entry), (∀ x ∈ W, ∀ y ∈ l, y.s ≠ x.s) → l.Pairwise (fun a b => a.s ≠ b.s) →
      ∀ e, e ∈ l.foldl record W ↔ e ∈ W ∨ e ∈ l := by
    intro l
    induction l with
    | nil => intro W _ _ e; simp
    | cons a l ih =>
      intro W hW hl e
      rw [List.foldl_cons, ih _ _ (List.pairwise_cons.1 hl).2]
      · have hrc : ∀ x, x ∈ record W a ↔ x = a ∨ x ∈ W := by
          intro x
          unfold record
          simp only [Set.mem_insert_iff, Set.mem_setOf_eq]
          constructor
          · rintro (h | h)
            · exact Or.inl h
            · exact Or.inr h.1
          · rintro (h | h)
            · exact Or.inl h
            · exact Or.inr ⟨h, hA _ _ (hW x h a (List.mem_cons_self ..))⟩
        rw [hrc, List.mem_cons]
        tauto
      · intro x hx y hy
        unfold record at hx
        rcases hx with rfl | hx
        · exact ((List.pairwise_cons.1 hl).1 y hy).symm
        · exact hW x hx.1 y (List.mem_cons_of_mem _ hy)
  rw [recordAll, this L ∅ (by simp) hne]
  simp

private def exFacts (w : ℕ) : List Entry := if w = 0 then wFacts else if w = 1 then [⟨⟨1, 2, 3, 4⟩, 0x1000, 0x1000, 0, 0⟩] else []

/-- process 3 is the first and knows nothing, process 0 has two plans and a time-out, process 1 a better plan for one of the problems -/
example : ∃ sts : PSts, Ready (fun _ => wEnv) [3, 0, 1] sts ∧ NoConflict [3, 0, 1] sts ∧
    ∃ s f, Finds sts 0 s f ∧ ¬ Finds sts 3 s f ∧ ¬ Finds sts 1 s f := by
  obtain ⟨t0, _, g2, g3, _⟩ := mkhashtab_spec
  have ht : ∀ w, ∃ t : HTab, t.Inv ∧ (∀ e, e ∈ t.contents ↔ e ∈ exFacts w) ∧ t.nelem ≤ (exFacts w).length := by
    intro w
    refine table_of _ ?_ ?_
    · unfold exFacts
      split
      · decide
      · split <;> simp
    · unfold exFacts
      split
      · decide
      · split <;> simp
  choose t k1 k2 k3 using ht
  have hall : ∀ w, ∀ e ∈ exFacts w, e ∈ wFacts ++ [⟨⟨1, 2, 3, 4⟩, 0x1000, 0x1000, 0, 0⟩] := by
    intro w e he
    unfold exFacts at he
    split at he
    · exact List.mem_append_left _ he
    · split at he
      · exact List.mem_append_right _ he
      · simp at he
  have hinv : ∀ w, TInv wEnv (wSt (t w) t0) := by
    intro w
    refine ⟨k1 w, g2, ?_, ?_⟩
    · intro e he
      have : ∀ e ∈ wFacts ++ [⟨⟨1, 2, 3, 4⟩, 0x1000, 0x1000, 0, 0⟩], e.slvndx = 0xFFF ∨ e.slvndx.toNat < 2 := by decide
      exact this e (hall w e ((k2 w e).1 he))
    · intro e (he : e ∈ t0.contents)
      rw [g3] at he
      simp at he
  have hl : ∀ w, (t w).nelem ≤ 3 := by
    intro w
    refine (k3 w).trans ?_
    unfold exFacts
    split
    · decide
    · split <;> simp
  refine ⟨fun w => wSt (t w) t0, ⟨by simp, by decide, fun _ _ _ _ => rfl, fun _ _ => wEnv_registry, fun _ _ => by decide, fun w _ => hinv w, fun _ _ => g3, ?_, ?_⟩, ?_, ?_⟩
  · intro w _ e he
    have : ∀ e ∈ wFacts ++ [⟨⟨1, 2, 3, 4⟩, 0x1000, 0x1000, 0, 0⟩], e.s.s0 < 2 ^ 32 ∧ e.s.s1 < 2 ^ 32 ∧ e.s.s2 < 2 ^ 32 ∧ e.s.s3 < 2 ^ 32 ∧ (e.slvndx = 0xFFF ∨ e.slvndx.toNat < 2 ∧ e.tli = 0) := by
      decide
    exact this e (hall w e ((k2 w e).1 he))
  · have a := hl 3
    have b := hl 0
    have c := hl 1
    show ((wSt (t 3) t0).blessed.nelem + ((wSt (t 0) t0).blessed.nelem + ((wSt (t 1) t0).blessed.nelem + 0))) ≤ 2 ^ 30
    simp only [wSt]
    omega
  · intro v _ w _ a b ha hb hne hA
    have : ∀ a ∈ wFacts ++ [⟨⟨1, 2, 3, 4⟩, 0x1000, 0x1000, 0, 0⟩], ∀ b ∈ wFacts ++ [(⟨⟨1, 2, 3, 4⟩, 0x1000, 0x1000, 0, 0⟩ : Entry)], a ≠ b → a.s = b.s → a.slvndx ≠ 0xFFF ∧ b.slvndx ≠ 0xFFF := by
      decide
    exact this a (hall v a ((k2 v a).1 ha)) b (hall w b ((k2 w b).1 hb)) hne hA.1
  · refine ⟨⟨9, 2, 3, 0xFFFFFFFF⟩, ⟨0, 0x1000, 0, 0⟩, ?_, ?_, ?_⟩
    · refine (finds_iff (hinv 0) g3 _ _).2 ⟨⟨⟨9, 2, 3, 0xFFFFFFFF⟩, 0, 0x1000, 0, 0⟩, (k2 0 _).2 (by decide), Answers.self _⟩
    · intro h
      obtain ⟨x, hx, _⟩ := (finds_iff (hinv 3) g3 _ _).1 h
      have := (k2 3 x).1 hx
      simp [exFacts] at this
    · intro h
      obtain ⟨x, hx, ha⟩ := (finds_iff (hinv 1) g3 _ _).1 h
      have := (k2 1 x).1 hx
      simp only [exFacts, if_neg (by decide : ¬ (1 : ℕ) = 0), if_true, List.mem_singleton] at this
      subst this
      have := congrArg MSig.s0 ha.1
      simp at this

end FFTW.Mpi.MWisdom
