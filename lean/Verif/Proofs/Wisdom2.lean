import Verif.Proofs.Wisdom1
import Verif.Spec.ScanFormat

/-!
# Inversion: what a successful scan says about the text
-/

namespace FFTW.Scan
open FFTW.Print Spec

theorem isspace_iff (c : Int) : isspace c = true ↔ 0 ≤ c ∧ c ≤ 32 := by simp [isspace]

theorem digitVal_iff (c d : Int) : digitVal c = some d ↔ Digit c d := by
  unfold digitVal Digit isdigit isupper islower
  simp only [decide_eq_true_eq]
  split
  · simp only [Option.some.injEq]; omega
  · split
    · simp only [Option.some.injEq]; omega
    · split
      · simp only [Option.some.injEq]; omega
      · simp only [reduceCtorEq, false_iff]; omega

theorem view_getc {sc : Scanner} (h : (getc sc).1 ≠ EOF) : sc.view = (getc sc).1 :: (getc sc).2.view := by
  cases hv : sc.view with
  | nil => exact absurd (getc_nil hv).1 h
  | cons c cs =>
    obtain ⟨h1, h2, _⟩ := getc_cons hv
    rw [h1, h2]

/-- no spurious `EOF` among the characters to come -/
def Clean (sc : Scanner) : Prop := EOF ∉ sc.view

theorem clean_getc {sc : Scanner} (hc : Clean sc) : Clean (getc sc).2 := by
  unfold Clean at *
  cases hv : sc.view with
  | nil => rw [(getc_nil hv).2.1]; simp
  | cons c cs =>
    rw [(getc_cons hv).2.1]
    rw [hv] at hc
    exact fun h => hc (List.mem_cons_of_mem _ h)

theorem unget_view {sc : Scanner} (hc : Clean sc) : (ungetc (getc sc).2 (getc sc).1).view = sc.view := by
  cases hv : sc.view with
  | nil =>
    obtain ⟨h1, h2, h3⟩ := getc_nil hv
    rw [h1, view_ungetc_EOF h3, h2]
  | cons c cs =>
    obtain ⟨h1, h2, h3⟩ := getc_cons hv
    have : c ≠ EOF := by
      rintro rfl
      exact hc (by rw [hv]; simp)
    rw [h1, view_ungetc h3 c this, h2]

theorem eatBlanks_text (k : Nat) : ∀ sc : Scanner, sc.size ≤ k → Clean sc → ∃ bl, Blank bl ∧ sc.view = bl ++ (eatBlanks sc).view := by
  induction k using Nat.strong_induction_on with
  | _ k ih =>
    intro sc hk hc
    rw [eatBlanks]
    split
    · rename_i hs
      have hE : (getc sc).1 ≠ EOF := by intro h'; rw [h'] at hs; exact absurd hs (by decide)
      have := getc_size hE
      obtain ⟨bl, h1, h2⟩ := ih (getc sc).2.size (by omega) (getc sc).2 le_rfl (clean_getc hc)
      refine ⟨(getc sc).1 :: bl, ?_, ?_⟩
      · intro c hc'
        rcases List.mem_cons.1 hc' with rfl | hc'
        · exact (isspace_iff _).1 hs
        · exact h1 c hc'
      · rw [view_getc hE, List.cons_append, ← h2]
    · exact ⟨[], by simp [Blank], by rw [unget_view hc]; rfl⟩

theorem mygetsLoop_text (maxlen k : Nat) : ∀ (sc : Scanner) (s : Nat), sc.size ≤ k → Clean sc →
    ∃ nam : List Int, sc.view = nam ++ (mygetsLoop sc s maxlen).2.view ∧ (mygetsLoop sc s maxlen).1 = nam.map (· % 256) ∧ nam.length ≤ maxlen - s ∧
      ∀ c ∈ nam, ¬ (0 ≤ c ∧ c ≤ 32) ∧ c ≠ chr '(' ∧ c ≠ chr ')' := by
  induction k using Nat.strong_induction_on with
  | _ k ih =>
    intro sc s hk hc
    rw [mygetsLoop]
    simp only []
    split
    · rename_i hs
      have := getc_size hs.1
      obtain ⟨nam, h1, h2, h3, h4⟩ := ih (getc sc).2.size (by omega) (getc sc).2 (s + 1) le_rfl (clean_getc hc)
      refine ⟨(getc sc).1 :: nam, ?_, ?_, ?_, ?_⟩
      · rw [view_getc hs.1, List.cons_append, ← h1]
      · simp only [List.map_cons, h2]
      · simp only [List.length_cons]; omega
      · intro c hc'
        rcases List.mem_cons.1 hc' with rfl | hc'
        · refine ⟨?_, hs.2.2.2.1, hs.2.2.1⟩
          rw [← isspace_iff, hs.2.1]; simp
        · exact h4 c hc'
    · exact ⟨[], by rw [unget_view hc]; rfl, rfl, by simp, by simp⟩

theorem getlongLoop_text (base : Int) (sc : Scanner) (ch x : Int) (count : Nat) (r : Int × Nat × Int × Scanner)
    (h : getlongLoop base sc ch x count = some r) (hu : sc.ungotc = EOF) (hc : Clean sc) :
    ∃ t ds : List Int, List.Forall₂ Digit t ds ∧ (ungetc sc ch).view = t ++ (ungetc r.2.2.2 r.2.2.1).view ∧
      r.1 = ds.foldl (fun x d => x * base + d) x ∧ r.2.1 = count + t.length ∧ Clean (ungetc r.2.2.2 r.2.2.1) := by
  revert hu hc
  refine getlongLoop.partial_correctness base (fun sc ch x count r => sc.ungotc = EOF → Clean sc → 
    ∃ t ds : List Int, List.Forall₂ Digit t ds ∧ (ungetc sc ch).view = t ++ (ungetc r.2.2.2 r.2.2.1).view ∧
      r.1 = ds.foldl (fun x d => x * base + d) x ∧ r.2.1 = count + t.length ∧ Clean (ungetc r.2.2.2 r.2.2.1)) ?_ sc ch x count r h
  intro f ih sc ch x count r h hu hc
  have hE : digitVal EOF = none := by decide
  split at h
  · rename_i hv
    simp only [Option.some.injEq] at h
    subst h
    refine ⟨[], [], .nil, by simp, rfl, rfl, ?_⟩
    by_cases he : ch = EOF
    · subst he
      unfold Clean
      rw [view_ungetc_EOF hu]
      exact hc
    · unfold Clean
      rw [view_ungetc hu ch he]
      simp only [List.mem_cons, not_or]
      exact ⟨fun h => he h.symm, hc⟩
  · rename_i v hv
    have hch : ch ≠ EOF := by rintro rfl; rw [hE] at hv; simp at hv
    simp only [Option.bind_eq_bind] at h
    obtain ⟨a, ha, h⟩ := Option.bind_eq_some_iff.1 h
    obtain ⟨b, hb, h⟩ := Option.bind_eq_some_iff.1 h
    obtain ⟨t, ds, h1, h2, h3, h4, h5⟩ := ih _ _ _ _ _ h (getc_ungotc sc) (clean_getc hc)
    rw [unget_view hc] at h2
    have ha' : a = x * base := by
      unfold cmul chk at ha
      split at ha <;> simp_all
    have hb' : b = a + v := by
      unfold cadd chk at hb
      split at hb <;> simp_all
    refine ⟨ch :: t, v :: ds, .cons ((digitVal_iff _ _).1 hv) h1, ?_, ?_, ?_, h5⟩
    · rw [view_ungetc hu ch hch, h2]; rfl
    · rw [List.foldl_cons, h3, hb', ha']
    · rw [h4, List.length_cons]; omega

theorem getlong_text {sc : Scanner} {base : Int} {x : Int} {sc' : Scanner} (hc : Clean sc) (h : getlong sc base = some (x, true, sc')) :
    ∃ a, Num base a x ∧ sc.view = a ++ sc'.view ∧ Clean sc' := by
  have e1 : chr '-' = 45 := by decide
  have e2 : chr '+' = 43 := by decide
  unfold getlong at h
  simp only [Option.bind_eq_bind] at h
  split at h
  · rename_i hs
    obtain ⟨a, ha, h⟩ := Option.bind_eq_some_iff.1 h
    obtain ⟨b, hb, h⟩ := Option.bind_eq_some_iff.1 h
    simp only [Option.pure_def, Option.some.injEq, Prod.mk.injEq, decide_eq_true_eq] at h
    obtain ⟨rfl, h1, rfl⟩ := h
    obtain ⟨t, ds, k1, k2, k3, k4, k5⟩ := getlongLoop_text base _ _ _ _ _ ha (getc_ungotc _) (clean_getc (clean_getc hc))
    rw [unget_view (clean_getc hc)] at k2
    have hE : (getc sc).1 ≠ EOF := by
      rcases hs with hs | hs <;> rw [hs] <;> decide
    have hd : DigitsOf base t a.1 := by
      refine ⟨?_, ds, k1, k3⟩
      rintro rfl
      simp only [List.length_nil] at k4
      rw [k4] at h1
      exact absurd h1 (by decide)
    have hb' : b = a.1 * (if (getc sc).1 = chr '-' then -1 else 1) := by
      unfold cmul chk at hb
      split at hb <;> simp_all
    refine ⟨(getc sc).1 :: t, ?_, ?_, k5⟩
    · right
      rcases hs with hs | hs
      · right
        exact ⟨t, a.1, by rw [hs, e1], hd, by rw [hb', if_pos hs]; omega⟩
      · left
        have hne : ¬ (getc sc).1 = chr '-' := by rw [hs]; decide
        exact ⟨t, by rw [hs, e2], by rw [hb', if_neg hne, mul_one]; exact hd⟩
    · rw [view_getc hE, k2]; rfl
  · obtain ⟨a, ha, h⟩ := Option.bind_eq_some_iff.1 h
    obtain ⟨b, hb, h⟩ := Option.bind_eq_some_iff.1 h
    simp only [Option.pure_def, Option.some.injEq, Prod.mk.injEq, decide_eq_true_eq] at h
    obtain ⟨rfl, h1, rfl⟩ := h
    obtain ⟨t, ds, k1, k2, k3, k4, k5⟩ := getlongLoop_text base _ _ _ _ _ ha (getc_ungotc _) (clean_getc hc)
    rw [unget_view hc] at k2
    have hd : DigitsOf base t a.1 := by
      refine ⟨?_, ds, k1, k3⟩
      rintro rfl
      simp only [List.length_nil] at k4
      rw [k4] at h1
      exact absurd h1 (by decide)
    have hb' : b = a.1 * 1 := by
      unfold cmul chk at hb
      split at hb <;> simp_all
    exact ⟨t, Or.inl (by rw [hb', mul_one]; exact hd), k2, k5⟩

theorem clean_of_suffix {sc sc' : Scanner} {t : List Int} (hc : Clean sc) (h : sc.view = t ++ sc'.view) : Clean sc' := by
  unfold Clean at *
  rw [h] at hc
  exact fun h' => hc (List.mem_append_right _ h')

theorem eatIf_text (p : Prop) [Decidable p] (sc : Scanner) (hc : Clean sc) :
    ∃ bl, Blank bl ∧ sc.view = bl ++ (if p then eatBlanks sc else sc).view ∧ (¬ p → bl = []) := by
  split
  · rename_i hp
    obtain ⟨bl, h1, h2⟩ := eatBlanks_text _ sc le_rfl hc
    exact ⟨bl, h1, h2, fun h => absurd hp h⟩
  · exact ⟨[], by simp [Blank], rfl, fun _ => rfl⟩

theorem vscan_text (sc : Scanner) (fmt : List Char) (maxs : List Int) : ∀ vs sc', Clean sc → vscan sc fmt maxs = some (true, vs, sc') →
    ∃ t, sc.view = t ++ sc'.view ∧ Fits fmt maxs t vs := by
  fun_induction vscan sc fmt maxs with
  | case1 sc => intro vs sc' hc h; simp at h; obtain ⟨rfl, rfl⟩ := h; exact ⟨[], rfl, .nil⟩
  | case2 sc fmt n maxs hn => intro vs sc' hc h; simp at h
  | case3 sc fmt n maxs hn r ih =>
    intro vs sc' hc h
    simp only [Option.bind_eq_bind] at h
    obtain ⟨⟨ok, vs1, sc1⟩, ha, h⟩ := Option.bind_eq_some_iff.1 h
    simp only [Option.pure_def, Option.some.injEq, Prod.mk.injEq] at h
    obtain ⟨rfl, rfl, rfl⟩ := h
    obtain ⟨nam, h1, h2, h3, h4⟩ := mygetsLoop_text n.toNat _ sc 0 le_rfl hc
    obtain ⟨t, k1, k2⟩ := ih vs1 sc1 (clean_of_suffix hc h1) ha
    refine ⟨nam ++ t, ?_, ?_⟩
    · rw [List.append_assoc, ← k1]; exact h1
    · rw [show r.1 = nam.map (· % 256) from h2]
      exact .str (by omega) h4 k2
  | case4 sc fmt maxs r ih =>
    intro vs sc' hc h
    simp only [Option.bind_eq_bind] at h
    obtain ⟨⟨ok, vs1, sc1⟩, ha, h⟩ := Option.bind_eq_some_iff.1 h
    simp only [Option.pure_def, Option.some.injEq, Prod.mk.injEq] at h
    obtain ⟨rfl, rfl, rfl⟩ := h
    obtain ⟨nam, h1, h2, h3, h4⟩ := mygetsLoop_text 0 _ sc 0 le_rfl hc
    obtain ⟨t, k1, k2⟩ := ih vs1 sc1 (clean_of_suffix hc h1) ha
    have hn : nam = [] := List.eq_nil_of_length_eq_zero (by omega)
    subst hn
    refine ⟨t, ?_, ?_⟩
    · rw [← k1]; exact h1
    · rw [show r.1 = [] from h2]
      exact .str0 k2
  | case5 sc fmt maxs ih | case6 sc fmt maxs ih | case7 sc fmt maxs ih =>
    intro vs sc' hc h
    simp only [Option.bind_eq_bind] at h
    obtain ⟨⟨x, ret, sc1⟩, ha, h⟩ := Option.bind_eq_some_iff.1 h
    simp only at h
    split at h
    · rename_i hret
      obtain ⟨⟨ok, vs1, sc2⟩, hb, h⟩ := Option.bind_eq_some_iff.1 h
      simp only [Option.pure_def, Option.some.injEq, Prod.mk.injEq] at h
      obtain ⟨rfl, rfl, rfl⟩ := h
      rw [hret] at ha
      obtain ⟨a, h1, h2, h3⟩ := getlong_text hc ha
      obtain ⟨t, k1, k2⟩ := ih sc1 vs1 sc2 h3 hb
      refine ⟨a ++ t, ?_, ?_⟩
      · rw [List.append_assoc, ← k1]; exact h2
      · first
        | exact .dec h1 k2
        | exact .hex h1 k2
        | exact .md5 h1 k2
    · simp at h
  | case8 => intro vs sc' hc h; simp at h
  | case9 sc c fmt maxs _ _ _ _ _ _ sc1 hs ih =>
    intro vs sc' hc h
    obtain ⟨bl, h1, h2, _⟩ := eatIf_text (isspace (chr c) = true ∨ c = '(' ∨ c = ')') sc hc
    obtain ⟨t, k1, k2⟩ := ih vs sc' (clean_of_suffix hc h2) h
    refine ⟨bl ++ t, ?_, ?_⟩
    · rw [List.append_assoc, ← k1]; exact h2
    · refine .blank ?_ h1 k2
      have := (isspace_iff _).1 hs
      unfold chr at this
      omega
  | case10 sc c fmt maxs _ _ _ _ _ _ sc1 hs r hr => intro vs sc' hc h; simp at h
  | case11 sc c fmt maxs _ _ _ _ _ hpc sc1 hs r hr ih =>
    intro vs sc' hc h
    obtain ⟨bl, h1, h2, h3⟩ := eatIf_text (isspace (chr c) = true ∨ c = '(' ∨ c = ')') sc hc
    have hc1 : Clean sc1 := clean_of_suffix hc h2
    have hr : (getc sc1).1 = chr c := by simpa using hr
    have hE : (getc sc1).1 ≠ EOF := by rw [hr]; unfold chr EOF; omega
    obtain ⟨t, k1, k2⟩ := ih vs sc' (clean_getc hc1) h
    have k3 := view_getc hE
    rw [hr, k1] at k3
    refine ⟨bl ++ chr c :: t, ?_, ?_⟩
    · rw [List.append_assoc, List.cons_append, ← k3]; exact h2
    · by_cases hp : c = '(' ∨ c = ')'
      · exact .paren hp h1 k2
      · rw [h3 (by tauto)]
        exact .lit (fun h => hpc h) k2
end FFTW.Scan
