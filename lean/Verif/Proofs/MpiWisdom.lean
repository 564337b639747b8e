import Verif.Model.MpiWisdom
import Verif.Props.Wisdom

/-! # Collecting and distributing wisdom over MPI: proofs -/

namespace FFTW.Mpi.MWisdom
open FFTW.Planner FFTW.Scan FFTW.Print WisdomSpec

theorem pure_bind' {α β : Type} (a : α) (f : α → Out β) : ((pure a : Out α) >>= f) = f a := rfl

theorem cString_text : ∀ text : List Int, (∀ c ∈ text, 0 < c ∧ c < 128) → ∃ s, cString (text.map some ++ [some 0]) = some s ∧ strInput s = text
  | [], _ => ⟨[0], rfl, rfl⟩
  | c :: l, h => by
    obtain ⟨s, h1, h2⟩ := cString_text l fun x hx => h x (List.mem_cons_of_mem _ hx)
    obtain ⟨c1, c2⟩ := h c (List.mem_cons_self ..)
    have hn : (UInt8.ofNat (c % 256).toNat).toNat = c.toNat := by
      rw [UInt8.toNat_ofNat']
      omega
    have h0 : UInt8.ofNat (c % 256).toNat ≠ 0 := by
      intro e
      rw [e] at hn
      simp at hn
      omega
    refine ⟨UInt8.ofNat (c % 256).toNat :: s, ?_, ?_⟩
    · rw [List.map_cons, List.cons_append, cString, if_neg h0, h1]
      rfl
    · unfold strInput at h2 ⊢
      rw [List.takeWhile_cons, if_pos (by simpa using h0), List.map_cons, h2, if_pos (by omega), hn]
      congr 1
      omega

/-- `y` is at least as good as `x` -/
def Cov (y x : Entry) : Prop := Answers y x.s x.l x.u x.tli ∧ (y = x ∨ y.slvndx ≠ 0xFFF ∧ x.slvndx ≠ 0xFFF)

theorem Cov.refl (x : Entry) : Cov x x := ⟨Answers.self x, Or.inl rfl⟩

theorem Cov.trans {a b c : Entry} (h : Cov a b) (h' : Cov b c) : Cov a c := by
  rcases h.2 with rfl | ⟨f1, f2⟩
  · exact h'
  · rcases h'.2 with rfl | ⟨g1, g2⟩
    · exact h
    · exact ⟨(Answers.trans h.1 h'.1 f1 f2).1, Or.inr ⟨f1, g2⟩⟩

/-- no fact of `F` makes superfluous another one, unless both are plans -/
def Compatible (F : Set Entry) : Prop := ∀ a ∈ F, ∀ b ∈ F, a ≠ b → Answers a b.s b.l b.u b.tli → a.slvndx ≠ 0xFFF ∧ b.slvndx ≠ 0xFFF

theorem Compatible.cov {F : Set Entry} (hF : Compatible F) {a b : Entry} (ha : a ∈ F) (hb : b ∈ F) (h : Answers a b.s b.l b.u b.tli) : Cov a b := by
  by_cases e : a = b
  · rw [e]; exact Cov.refl b
  · exact ⟨h, Or.inr (hF a ha b hb e h)⟩

theorem learn_sub {U W : Set Entry} {e x : Entry} (h : x ∈ learn U W e) : x = e ∨ x ∈ W := by
  unfold learn at h
  split at h
  · exact Or.inr h
  · exact h.imp_right fun h => h.1

theorem learnAll_sub {U : Set Entry} {x : Entry} : ∀ (es : List Entry) {W : Set Entry}, x ∈ learnAll U W es → x ∈ es ∨ x ∈ W
  | [], _, h => Or.inr h
  | e :: es, W, h => by
    rcases learnAll_sub es (W := learn U W e) h with h | h
    · exact Or.inl (List.mem_cons_of_mem _ h)
    · exact (learn_sub h).imp_left (by rintro rfl; exact List.mem_cons_self ..)

theorem learn_cov {F W : Set Entry} (hF : Compatible F) (hW : ∀ x ∈ W, x ∈ F) {e : Entry} (he : e ∈ F) {x : Entry} (h : (∃ y ∈ W, Cov y x) ∨ Cov e x) :
    ∃ y ∈ learn ∅ W e, Cov y x := by
  unfold learn
  split
  · rename_i hex
    obtain ⟨z, hz | hz, ha⟩ := hex
    · rcases h with h | h
      · exact h
      · exact ⟨z, hz, (hF.cov (hW z hz) he ha).trans h⟩
    · exact absurd hz (by simp)
  · rcases h with ⟨y, hy, hc⟩ | h
    · by_cases hk : Answers e y.s y.l y.u y.tli
      · exact ⟨e, Or.inl rfl, (hF.cov he (hW y hy) hk).trans hc⟩
      · exact ⟨y, Or.inr ⟨hy, hk⟩, hc⟩
    · exact ⟨e, Or.inl rfl, h⟩

theorem learnAll_cov {F : Set Entry} (hF : Compatible F) {x : Entry} : ∀ (es : List Entry) {W : Set Entry}, (∀ y ∈ W, y ∈ F) → (∀ y ∈ es, y ∈ F) →
    ((∃ y ∈ W, Cov y x) ∨ ∃ y ∈ es, Cov y x) → ∃ y ∈ learnAll ∅ W es, Cov y x
  | [], _, _, _, h => by simpa [learnAll] using h
  | e :: es, W, hW, hes, h => by
    have he := hes e (List.mem_cons_self ..)
    refine learnAll_cov hF es (W := learn ∅ W e) (fun y hy => ?_) (fun y hy => hes y (List.mem_cons_of_mem _ hy)) ?_
    · rcases learn_sub hy with rfl | hy
      · exact he
      · exact hW y hy
    · rcases h with h | ⟨y, hy, hc⟩
      · exact Or.inl (learn_cov hF hW he (Or.inl h))
      · rcases List.mem_cons.1 hy with rfl | hy
        · exact Or.inl (learn_cov hF hW he (Or.inr hc))
        · exact Or.inr ⟨y, hy, hc⟩

theorem exportLoop_congr {a b : Env} (h : a.slvdescs = b.slvdescs) : ∀ L : List Slot, exportLoop a L = exportLoop b L
  | [] => rfl
  | l :: L => by
    unfold exportLoop
    rw [exportLoop_congr h L]
    unfold exportSlot exportName
    rw [h]

theorem exprt_congr {a b : Env} (h : a.slvdescs = b.slvdescs) (st : PSt) : exprt a st = exprt b st := by
  unfold exprt signatureOfConfiguration
  rw [exportLoop_congr h, h]

/-- the planner of a process, all of whose facts belong to `F` -/
structure Fine (env : Env) (F : Set Entry) (st : PSt) : Prop where
  inv : TInv env st
  temp : st.unblessed.contents = 0
  facts : ∀ e ∈ st.blessed.contents, e ∈ F

theorem mem_saved {st : PSt} {e : Entry} : e ∈ (st.blessed.sols.filter Slot.live).map Slot.entry ↔ e ∈ st.blessed.contents := by
  simp [HTab.contents]

/-- one message -/
theorem message_ok {F : Set Entry} (a : Env) (hr : Registry a) (hlen : (configMessage 8 (registered a)).length < 2 ^ 29) (hx : ∀ e ∈ F, Exportable a e) {st0 : PSt} (h0 : Fine a F st0) :
    ∃ s, sent a st0 = pure s ∧ ∀ (b : Env) (st : PSt), b.slvdescs = a.slvdescs → Fine b F st → st.blessed.nelem + st0.blessed.nelem ≤ 2 ^ 31 →
      ∃ st', received b st s = pure st' ∧ Fine b F st' ∧ st' = { st with blessed := st'.blessed } ∧ st'.blessed.nelem ≤ st.blessed.nelem + st0.blessed.nelem ∧
        (∀ x ∈ st'.blessed.contents, x ∈ st.blessed.contents ∨ x ∈ st0.blessed.contents) ∧
        (Compatible F → ∀ x, ((∃ y ∈ st.blessed.contents, Cov y x) ∨ ∃ y ∈ st0.blessed.contents, Cov y x) → ∃ y ∈ st'.blessed.contents, Cov y x) := by
  obtain ⟨m, hm, _⟩ := C21_signature_is_md5_of_configuration a hlen
  obtain ⟨text, t1, ta, _, t2⟩ := export_import' hr hm st0 fun x h => hx x (h0.facts x h)
  obtain ⟨s, s1, s2⟩ := cString_text text ta
  refine ⟨s, ?_, fun b st hb hst hn => ?_⟩
  · unfold sent
    rw [t1, Option.bind_some, exportToString_some, Option.bind_some, s1]
  · have hrb : Registry b := by
      obtain ⟨r1, r2, r3, r4, r5⟩ := hr
      exact ⟨by rw [hb]; exact r1, by rw [hb]; exact r2, by rw [hb]; exact r3, by rw [hb]; exact r4, by rw [hb]; exact r5⟩
    have hmb : signatureOfConfiguration b = some m := by
      rw [← hm]
      unfold signatureOfConfiguration
      rw [hb]
    obtain ⟨text', t1', _, _, t2'⟩ := export_import' hrb hmb st0 fun x h => by
      have := hx x (h0.facts x h)
      unfold Exportable at this ⊢
      rw [hb]
      exact this
    have he : text' = text := by
      rw [exprt_congr hb, t1] at t1'
      exact (Option.some.inj t1').symm
    subst he
    have hc := h0.inv.b.count
    obtain ⟨st', i1, i2, i3, i4, i5⟩ := t2' st hst.inv (by omega)
    have hU : ({x | x ∈ st.unblessed.contents} : Set Entry) = ∅ := by rw [hst.temp]; ext; simp
    rw [hU] at i4
    have hsub : ∀ x ∈ st'.blessed.contents, x ∈ st.blessed.contents ∨ x ∈ st0.blessed.contents := by
      intro x hx'
      rcases learnAll_sub _ ((i4 x).1 hx') with h | h
      · exact Or.inr (mem_saved.1 h)
      · exact Or.inl h
    refine ⟨st', ?_, ⟨i2, ?_, ?_⟩, i3, by omega, hsub, ?_⟩
    · unfold received importFromString
      rw [s2, i1]
    · rw [i3]; exact hst.temp
    · intro e he
      rcases hsub e he with h | h
      · exact hst.facts e h
      · exact h0.facts e h
    · intro hF x h
      obtain ⟨y, hy, hc⟩ := learnAll_cov hF (x := x) ((st0.blessed.sols.filter Slot.live).map Slot.entry) (W := {x | x ∈ st.blessed.contents}) (fun y hy => hst.facts y hy)
        (fun y hy => h0.facts y (mem_saved.1 hy)) (h.imp id fun ⟨y, hy, hc⟩ => ⟨y, mem_saved.2 hy, hc⟩)
      exact ⟨y, (i4 y).2 hy, hc⟩

/-- facts in all tables together -/
def total (sts : PSts) (c : Comm) : ℕ := (c.map fun w => (sts w).blessed.nelem).sum

/-- what holds of all processes -/
structure Group (env : ℕ → Env) (F : Set Entry) (c : Comm) (sts : PSts) : Prop where
  fine : ∀ w ∈ c, Fine (env w) F (sts w)
  same : ∀ v ∈ c, ∀ w ∈ c, (env v).slvdescs = (env w).slvdescs
  reg : ∀ w ∈ c, Registry (env w)
  len : ∀ w ∈ c, (configMessage 8 (registered (env w))).length < 2 ^ 29
  exp : ∀ w ∈ c, ∀ e ∈ F, Exportable (env w) e
  room : total sts c ≤ 2 ^ 31

theorem total_ge {sts : PSts} {c : Comm} {w : ℕ} (h : w ∈ c) : (sts w).blessed.nelem ≤ total sts c :=
  List.single_le_sum (by simp) _ (List.mem_map.2 ⟨w, h, rfl⟩)

theorem total_ge2 {sts : PSts} {c : Comm} {v w : ℕ} (hv : v ∈ c) (hw : w ∈ c) (hne : v ≠ w) : (sts v).blessed.nelem + (sts w).blessed.nelem ≤ total sts c := by
  induction c with
  | nil => simp at hv
  | cons a c ih =>
    have ht : total sts (a :: c) = (sts a).blessed.nelem + total sts c := by simp [total]
    rw [ht]
    rcases List.mem_cons.1 hv with rfl | hv'
    · rcases List.mem_cons.1 hw with rfl | hw'
      · exact absurd rfl hne
      · have := total_ge (sts := sts) hw'
        omega
    · rcases List.mem_cons.1 hw with rfl | hw'
      · have := total_ge (sts := sts) hv'
        omega
      · have := ih hv' hw'
        omega

theorem at_mem' {c : Comm} {r : ℕ} (h : r < c.length) : c.at r ∈ c := by
  unfold Comm.at
  rw [List.getD_eq_getElem _ _ h]
  exact List.getElem_mem h

theorem at_idx' {c : Comm} {w : ℕ} (h : w ∈ c) : c.idxOf w < c.length ∧ c.at (c.idxOf w) = w := by
  have h1 := List.idxOf_lt_length_of_mem h
  refine ⟨h1, ?_⟩
  unfold Comm.at
  rw [List.getD_eq_getElem _ _ h1]
  exact List.getElem_idxOf h1

theorem at_inj' {c : Comm} (hn : c.Nodup) {a b : ℕ} (ha : a < c.length) (hb : b < c.length) (h : c.at a = c.at b) : a = b := by
  unfold Comm.at at h
  rw [List.getD_eq_getElem _ _ ha, List.getD_eq_getElem _ _ hb] at h
  exact (List.Nodup.getElem_inj_iff hn).1 h

theorem split_nodup' {c : Comm} (hn : c.Nodup) (f : ℕ → ℕ) (x : ℕ) : (c.split f x).Nodup := by
  unfold Comm.split
  refine List.Nodup.map_on (fun a ha b hb e => ?_) (List.nodup_range.filter _)
  exact at_inj' hn (List.mem_range.1 (List.mem_filter.1 ha).1) (List.mem_range.1 (List.mem_filter.1 hb).1) e

theorem split_perm (c : Comm) : (c.split (fun me => me % 2) 0 ++ c.split (fun me => me % 2) 1).Perm c := by
  unfold Comm.split
  rw [← List.map_append]
  have h : (List.filter (fun me => decide (me % 2 = 1)) (List.range c.length)) = List.filter (fun me => !decide (me % 2 = 0)) (List.range c.length) := by
    refine List.filter_congr fun x _ => ?_
    by_cases e : x % 2 = 0
    · simp [e]
    · have : x % 2 = 1 := by omega
      simp [this]
  rw [h]
  refine ((List.filter_append_perm _ _).map c.at).trans (List.Perm.of_eq ?_)
  refine List.ext_getElem (by simp) fun i h1 h2 => ?_
  simp [Comm.at, List.getElem?_eq_getElem h2]

theorem total_split (sts : PSts) (c : Comm) : total sts (c.split (fun me => me % 2) 0) + total sts (c.split (fun me => me % 2) 1) = total sts c := by
  have := ((split_perm c).map fun w => (sts w).blessed.nelem).sum_eq
  rw [List.map_append, List.sum_append] at this
  exact this

theorem split_at (c : Comm) (x : ℕ) (hx : x < 2) (h : x < c.length) : (c.split (fun me => me % 2) x).at 0 = c.at x ∧ c.split (fun me => me % 2) x ≠ [] := by
  unfold Comm.split
  have : ∃ l, (List.range c.length).filter (fun me => decide (me % 2 = x)) = x :: l := by
    have h2 : c.length = (c.length - (x + 1)) + (x + 1) := by omega
    have hd : (List.range (x + 1)).filter (fun me => decide (me % 2 = x)) = [x] := by
      rcases (by omega : x = 0 ∨ x = 1) with rfl | rfl <;> decide
    rw [h2, Nat.add_comm, List.range_add, List.filter_append, hd]
    exact ⟨_, rfl⟩
  obtain ⟨l, hl⟩ := this
  rw [hl]
  exact ⟨rfl, by simp⟩

theorem total_congr {sts sts' : PSts} {c : Comm} (h : ∀ w ∈ c, sts' w = sts w) : total sts' c = total sts c := by
  unfold total
  rw [List.map_congr_left fun w hw => by rw [h w hw]]

/-- the outcome of `gather` -/
structure Gathered (env : ℕ → Env) (F : Set Entry) (c : Comm) (sts sts' : PSts) : Prop where
  fine : ∀ w ∈ c, Fine (env w) F (sts' w)
  out : ∀ w ∉ c, sts' w = sts w
  only : ∀ w, sts' w = { sts w with blessed := (sts' w).blessed }
  size : ∀ w ∈ c, (sts' w).blessed.nelem ≤ total sts c
  src : ∀ w ∈ c, ∀ e ∈ (sts' w).blessed.contents, ∃ v ∈ c, e ∈ (sts v).blessed.contents
  cov : Compatible F → ∀ x, (∃ w ∈ c, ∃ y ∈ (sts w).blessed.contents, Cov y x) → ∃ y ∈ (sts' (c.at 0)).blessed.contents, Cov y x

theorem gather_ok {env : ℕ → Env} {F : Set Entry} (n : ℕ) : ∀ (c : Comm) (sts : PSts), c.length ≤ n → c ≠ [] → c.Nodup → Group env F c sts →
    ∃ sts', gather env c sts = pure sts' ∧ Gathered env F c sts sts' := by
  induction n with
  | zero => intro c sts hl hc; exact absurd (List.length_eq_zero_iff.1 (by omega)) hc
  | succ n ih =>
    intro c sts hl hc hn hg
    have h1 : ∃ sts1, (if _h : 2 < c.length then do
        let sts ← gather env (c.split (fun me => me % 2) 0) sts
        gather env (c.split (fun me => me % 2) 1) sts
      else pure sts : Out PSts) = pure sts1 ∧ (∀ w ∈ c, Fine (env w) F (sts1 w)) ∧ (∀ w ∉ c, sts1 w = sts w) ∧ (∀ w, sts1 w = { sts w with blessed := (sts1 w).blessed }) ∧
        (∀ w ∈ c, (sts1 w).blessed.nelem ≤ total sts c) ∧ (∀ w ∈ c, ∀ e ∈ (sts1 w).blessed.contents, ∃ v ∈ c, e ∈ (sts v).blessed.contents) ∧
        (1 < c.length → (sts1 (c.at 0)).blessed.nelem + (sts1 (c.at 1)).blessed.nelem ≤ total sts c) ∧
        (Compatible F → ∀ x, (∃ w ∈ c, ∃ y ∈ (sts w).blessed.contents, Cov y x) →
          (∃ y ∈ (sts1 (c.at 0)).blessed.contents, Cov y x) ∨ (1 < c.length ∧ ∃ y ∈ (sts1 (c.at 1)).blessed.contents, Cov y x)) := by
      by_cases h2 : 2 < c.length
      · rw [dif_pos h2]
        have p := split_perm c
        have hsub : ∀ x, x < 2 → ∀ w ∈ c.split (fun me => me % 2) x, w ∈ c := by
          intro x hx w hw
          refine p.subset (List.mem_append.2 ?_)
          rcases (by omega : x = 0 ∨ x = 1) with rfl | rfl
          · exact Or.inl hw
          · exact Or.inr hw
        have hdis : ∀ w ∈ c.split (fun me => me % 2) 0, w ∉ c.split (fun me => me % 2) 1 := by
          have hnd := p.nodup_iff.2 hn
          intro w h0 h1
          exact List.disjoint_of_nodup_append hnd h0 h1
        have hts := total_split sts c
        have hroom := hg.room
        obtain ⟨a0, n0⟩ := split_at c 0 (by omega) (by omega)
        obtain ⟨a1, n1⟩ := split_at c 1 (by omega) (by omega)
        obtain ⟨s1, g1, q1⟩ := ih _ sts (by have := split_parity_lt c 0 h2; omega) n0 (split_nodup' hn _ _)
          ⟨fun w hw => hg.fine w (hsub 0 (by omega) w hw), fun v hv w hw => hg.same v (hsub 0 (by omega) v hv) w (hsub 0 (by omega) w hw), fun w hw => hg.reg w (hsub 0 (by omega) w hw),
            fun w hw => hg.len w (hsub 0 (by omega) w hw), fun w hw => hg.exp w (hsub 0 (by omega) w hw), by omega⟩
        have hun : ∀ w ∈ c.split (fun me => me % 2) 1, s1 w = sts w := fun w hw => q1.out w fun h => hdis w h hw
        have ht1 := total_congr hun
        obtain ⟨s2, g2, q2⟩ := ih _ s1 (by have := split_parity_lt c 1 h2; omega) n1 (split_nodup' hn _ _)
          ⟨fun w hw => by rw [hun w hw]; exact hg.fine w (hsub 1 (by omega) w hw), fun v hv w hw => hg.same v (hsub 1 (by omega) v hv) w (hsub 1 (by omega) w hw),
            fun w hw => hg.reg w (hsub 1 (by omega) w hw), fun w hw => hg.len w (hsub 1 (by omega) w hw), fun w hw => hg.exp w (hsub 1 (by omega) w hw), by omega⟩
        have hst0 : ∀ w ∈ c.split (fun me => me % 2) 0, s2 w = s1 w := fun w hw => q2.out w (hdis w hw)
        have hmem : ∀ w ∈ c, w ∈ c.split (fun me => me % 2) 0 ∨ w ∈ c.split (fun me => me % 2) 1 := fun w hw => List.mem_append.1 (p.symm.subset hw)
        have m0 : c.at 0 ∈ c.split (fun me => me % 2) 0 := by rw [← a0]; exact at_mem' (List.length_pos_iff.2 n0)
        have m1 : c.at 1 ∈ c.split (fun me => me % 2) 1 := by rw [← a1]; exact at_mem' (List.length_pos_iff.2 n1)
        refine ⟨s2, ?_, fun w hw => ?_, fun w hw => ?_, fun w => ?_, fun w hw => ?_, fun w hw e he => ?_, fun _ => ?_, fun hF x hx => ?_⟩
        · rw [g1, pure_bind', g2]
        · rcases hmem w hw with h | h
          · rw [hst0 w h]; exact q1.fine w h
          · exact q2.fine w h
        · rw [q2.out w fun h => hw (hsub 1 (by omega) w h), q1.out w fun h => hw (hsub 0 (by omega) w h)]
        · rw [q2.only w, q1.only w]
        · rcases hmem w hw with h | h
          · rw [hst0 w h]
            have := q1.size w h
            omega
          · have := q2.size w h
            omega
        · rcases hmem w hw with h | h
          · rw [hst0 w h] at he
            obtain ⟨v, hv, h⟩ := q1.src w h e he
            exact ⟨v, hsub 0 (by omega) v hv, h⟩
          · obtain ⟨v, hv, h⟩ := q2.src w h e he
            rw [hun v hv] at h
            exact ⟨v, hsub 1 (by omega) v hv, h⟩
        · rw [hst0 _ m0]
          have e0 := q1.size _ m0
          have e1 := q2.size _ m1
          omega
        · obtain ⟨w, hw, y, hy, hc⟩ := hx
          rcases hmem w hw with h | h
          · left
            rw [hst0 _ m0, ← a0]
            exact q1.cov hF x ⟨w, h, y, hy, hc⟩
          · right
            refine ⟨by omega, ?_⟩
            rw [← a1]
            exact q2.cov hF x ⟨w, h, y, by rw [hun w h]; exact hy, hc⟩
      · rw [dif_neg h2]
        refine ⟨sts, rfl, hg.fine, fun w _ => rfl, fun w => rfl, fun w hw => total_ge hw, fun w hw e he => ⟨w, hw, he⟩, fun h1 => ?_, fun hF x hx => ?_⟩
        · exact total_ge2 (at_mem' (by omega)) (at_mem' h1) fun e => absurd (at_inj' hn (by omega) h1 e) (by omega)
        · obtain ⟨w, hw, y, hy, hc⟩ := hx
          obtain ⟨i1, i2⟩ := at_idx' hw
          rcases (by omega : c.idxOf w = 0 ∨ c.idxOf w = 1 ∧ 1 < c.length) with e | ⟨e, h1⟩
          · rw [e] at i2
            exact Or.inl ⟨y, by rw [i2]; exact hy, hc⟩
          · rw [e] at i2
            exact Or.inr ⟨h1, y, by rw [i2]; exact hy, hc⟩
    obtain ⟨s1, g1, f1, o1, b1, z1, r1, t1, k1⟩ := h1
    have hroom := hg.room
    have m0 : c.at 0 ∈ c := at_mem' (List.length_pos_iff.2 hc)
    rw [gather, g1, pure_bind']
    by_cases hlen : 1 < c.length
    · rw [if_pos hlen]
      have m1 : c.at 1 ∈ c := at_mem' hlen
      obtain ⟨s, x1, x2⟩ := message_ok (env (c.at 1)) (hg.reg _ m1) (hg.len _ m1) (hg.exp _ m1) (f1 _ m1)
      have ht := t1 hlen
      obtain ⟨st', y1, y2, y3, y4, y5, y6⟩ := x2 (env (c.at 0)) (s1 (c.at 0)) (hg.same _ m0 _ m1) (f1 _ m0) (by omega)
      refine ⟨fun w => if w = c.at 0 then st' else s1 w, ?_, fun w hw => ?_, fun w hw => ?_, fun w => ?_, fun w hw => ?_, fun w hw e he => ?_, fun hF x hx => ?_⟩
      · unfold transfer
        rw [x1, pure_bind', y1, pure_bind']
      · by_cases e : w = c.at 0
        · simp only [e, if_true]; exact y2
        · simp only [e, if_false]; exact f1 w hw
      · have e : w ≠ c.at 0 := fun e => hw (e ▸ m0)
        simp only [e, if_false]
        exact o1 w hw
      · by_cases e : w = c.at 0
        · simp only [e, if_true]
          rw [y3, b1]
        · simp only [e, if_false]
          exact b1 w
      · by_cases e : w = c.at 0
        · simp only [e, if_true]; omega
        · simp only [e, if_false]; exact z1 w hw
      · by_cases e' : w = c.at 0
        · simp only [e', if_true] at he
          rcases y5 e he with h | h
          · exact r1 _ m0 e h
          · exact r1 _ m1 e h
        · simp only [e', if_false] at he
          exact r1 w hw e he
      · simp only [if_true]
        refine y6 hF x ?_
        rcases k1 hF x hx with h | ⟨_, h⟩
        · exact Or.inl h
        · exact Or.inr h
    · rw [if_neg hlen]
      refine ⟨s1, rfl, f1, o1, b1, z1, r1, fun hF x hx => ?_⟩
      rcases k1 hF x hx with h | ⟨h, _⟩
      · exact h
      · exact absurd h hlen

theorem importAll_ok {env : ℕ → Env} {F : Set Entry} {a : Env} {st0 : PSt} {s : List UInt8}
    (hm : ∀ (b : Env) (st : PSt), b.slvdescs = a.slvdescs → Fine b F st → st.blessed.nelem + st0.blessed.nelem ≤ 2 ^ 31 →
      ∃ st', received b st s = pure st' ∧ Fine b F st' ∧ st' = { st with blessed := st'.blessed } ∧ st'.blessed.nelem ≤ st.blessed.nelem + st0.blessed.nelem ∧
        (∀ x ∈ st'.blessed.contents, x ∈ st.blessed.contents ∨ x ∈ st0.blessed.contents) ∧
        (Compatible F → ∀ x, ((∃ y ∈ st.blessed.contents, Cov y x) ∨ ∃ y ∈ st0.blessed.contents, Cov y x) → ∃ y ∈ st'.blessed.contents, Cov y x)) :
    ∀ (ws : List ℕ) (sts : PSts), ws.Nodup → (∀ w ∈ ws, (env w).slvdescs = a.slvdescs ∧ Fine (env w) F (sts w) ∧ (sts w).blessed.nelem + st0.blessed.nelem ≤ 2 ^ 31) →
      ∃ sts', importAll env s ws sts = pure sts' ∧ (∀ w ∉ ws, sts' w = sts w) ∧ ∀ w ∈ ws, Fine (env w) F (sts' w) ∧ sts' w = { sts w with blessed := (sts' w).blessed } ∧
        (∀ x ∈ (sts' w).blessed.contents, x ∈ (sts w).blessed.contents ∨ x ∈ st0.blessed.contents) ∧
        (Compatible F → ∀ x, ((∃ y ∈ (sts w).blessed.contents, Cov y x) ∨ ∃ y ∈ st0.blessed.contents, Cov y x) → ∃ y ∈ (sts' w).blessed.contents, Cov y x) := by
  intro ws
  induction ws with
  | nil => intro sts _ _; exact ⟨sts, rfl, fun _ _ => rfl, fun w hw => absurd hw (by simp)⟩
  | cons v ws ih =>
    intro sts hn h
    obtain ⟨hv, hn⟩ := List.nodup_cons.1 hn
    obtain ⟨e1, e2, e3⟩ := h v (List.mem_cons_self ..)
    obtain ⟨st', y1, y2, y3, _, y5, y6⟩ := hm (env v) (sts v) e1 e2 e3
    have hne : ∀ w ∈ ws, w ≠ v := fun w hw e => hv (e ▸ hw)
    obtain ⟨sts', z1, z2, z3⟩ := ih (fun w => if w = v then st' else sts w) hn fun w hw => by
      simp only [hne w hw, if_false]
      exact h w (List.mem_cons_of_mem _ hw)
    refine ⟨sts', ?_, fun w hw => ?_, fun w hw => ?_⟩
    · rw [importAll, y1, pure_bind', z1]
    · rw [z2 w fun h => hw (List.mem_cons_of_mem _ h), if_neg (by rintro rfl; exact hw (List.mem_cons_self ..))]
    · rcases List.mem_cons.1 hw with rfl | hw
      · rw [z2 w hv, if_pos rfl]
        exact ⟨y2, y3, y5, y6⟩
      · have := z3 w hw
        simp only [hne w hw, if_false] at this
        exact this

end FFTW.Mpi.MWisdom
