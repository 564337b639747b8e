import Verif.Model.Wisdom
import Verif.Proofs.PrintScan
import Verif.Proofs.Api

/-!
# Scanning never lengthens the input; importing terminates
-/

namespace FFTW.Scan
open FFTW.Print

theorem getc_ungotc (sc : Scanner) : (getc sc).2.ungotc = EOF := by
  unfold getc
  split
  · rfl
  · rename_i h
    have h : sc.ungotc = EOF := by simpa using h
    split <;> simp [h]

theorem getc_size_le (sc : Scanner) : (getc sc).2.size ≤ sc.size := by
  by_cases h : (getc sc).1 = EOF
  · unfold getc at *
    split
    · simp [Scanner.size]
    · rename_i hu
      split
      · rfl
      · rename_i hr
        simp [Scanner.size, hr]
  · exact (getc_size h).le

theorem unget_size (sc : Scanner) : (ungetc (getc sc).2 (getc sc).1).size ≤ sc.size := by
  by_cases h : (getc sc).1 = EOF
  · have := getc_size_le sc
    have hu := getc_ungotc sc
    rw [h]
    have : (ungetc (getc sc).2 EOF).size = (getc sc).2.size := by simp [ungetc, Scanner.size, hu]
    omega
  · have := getc_size h
    have hu := getc_ungotc sc
    have : (ungetc (getc sc).2 (getc sc).1).size = (getc sc).2.size + 1 := by simp [ungetc, Scanner.size, hu, h]
    omega

theorem eatBlanks_size (k : Nat) : ∀ sc : Scanner, sc.size ≤ k → (eatBlanks sc).size ≤ sc.size := by
  induction k with
  | zero =>
    intro sc h
    rw [eatBlanks]
    split
    · rename_i hs
      have := getc_size (sc := sc) (by intro h'; rw [h'] at hs; exact absurd hs (by decide))
      omega
    · exact unget_size sc
  | succ k ih =>
    intro sc h
    rw [eatBlanks]
    split
    · rename_i hs
      have := getc_size (sc := sc) (by intro h'; rw [h'] at hs; exact absurd hs (by decide))
      have := ih (getc sc).2 (by omega)
      omega
    · exact unget_size sc

theorem mygetsLoop_size (maxlen k : Nat) : ∀ (sc : Scanner) (s : Nat), sc.size ≤ k → (mygetsLoop sc s maxlen).2.size ≤ sc.size := by
  induction k with
  | zero =>
    intro sc s h
    rw [mygetsLoop]
    simp only []
    split
    · rename_i hs
      have := getc_size hs.1
      omega
    · exact unget_size sc
  | succ k ih =>
    intro sc s h
    rw [mygetsLoop]
    simp only []
    split
    · rename_i hs
      have := getc_size hs.1
      have := ih (getc sc).2 (s + 1) (by omega)
      simp only
      omega
    · exact unget_size sc

theorem getlongLoop_size (base : Int) : ∀ (sc : Scanner) (ch x : Int) (count : Nat) (r : Int × Nat × Int × Scanner), sc.ungotc = EOF →
    getlongLoop base sc ch x count = some r → (ungetc r.2.2.2 r.2.2.1).size ≤ (ungetc sc ch).size := by
  intro sc ch x count r hu h
  revert hu
  refine getlongLoop.partial_correctness base (fun sc ch _ _ r => sc.ungotc = EOF → (ungetc r.2.2.2 r.2.2.1).size ≤ (ungetc sc ch).size) ?_ sc ch x count r h
  intro f ih sc ch x count r h hu
  split at h
  · simp only [Option.some.injEq] at h
    subst h
    exact le_rfl
  · rename_i v hv
    have hE : digitVal EOF = none := by decide
    have hch : ch ≠ EOF := by rintro rfl; rw [hE] at hv; simp at hv
    simp only [Option.bind_eq_bind] at h
    obtain ⟨a, ha, h⟩ := Option.bind_eq_some_iff.1 h
    obtain ⟨b, hb, h⟩ := Option.bind_eq_some_iff.1 h
    have := ih _ _ _ _ _ h (getc_ungotc sc)
    have h2 := unget_size sc
    have h3 : (ungetc sc ch).size = sc.size + 1 := by simp [ungetc, Scanner.size, hu, hch]
    omega

theorem getlong_size {sc : Scanner} {base : Int} {r : Int × Bool × Scanner} (h : getlong sc base = some r) : r.2.2.size ≤ sc.size := by
  unfold getlong at h
  simp only [Option.bind_eq_bind] at h
  split at h
  all_goals
    obtain ⟨a, ha, h⟩ := Option.bind_eq_some_iff.1 h
    obtain ⟨b, hb, h⟩ := Option.bind_eq_some_iff.1 h
    simp only [Option.pure_def, Option.some.injEq] at h
    subst h
  · have := getlongLoop_size base _ _ _ _ _ (getc_ungotc _) ha
    exact this.trans ((unget_size _).trans (getc_size_le _))
  · have := getlongLoop_size base _ _ _ _ _ (getc_ungotc _) ha
    exact this.trans (unget_size _)

theorem eatIf_size (p : Prop) [Decidable p] (sc : Scanner) : (if p then eatBlanks sc else sc).size ≤ sc.size := by
  split
  · exact eatBlanks_size _ sc le_rfl
  · exact le_rfl

theorem vscan_size (sc : Scanner) (fmt : List Char) (maxs : List Int) : ∀ r, vscan sc fmt maxs = some r → r.2.2.size ≤ sc.size := by
  fun_induction vscan sc fmt maxs with
  | case1 sc => intro r h; simp at h; subst h; exact le_rfl
  | case2 sc fmt n maxs hn => intro r h; simp at h; subst h; exact le_rfl
  | case3 sc fmt n maxs hn r ih =>
    intro q h
    simp only [Option.bind_eq_bind] at h
    obtain ⟨a, ha, h⟩ := Option.bind_eq_some_iff.1 h
    simp only [Option.pure_def, Option.some.injEq] at h
    subst h
    exact (ih _ ha).trans (mygetsLoop_size _ _ sc 0 le_rfl)
  | case4 sc fmt maxs r ih =>
    intro q h
    simp only [Option.bind_eq_bind] at h
    obtain ⟨a, ha, h⟩ := Option.bind_eq_some_iff.1 h
    simp only [Option.pure_def, Option.some.injEq] at h
    subst h
    exact (ih _ ha).trans (mygetsLoop_size _ _ sc 0 le_rfl)
  | case5 sc fmt maxs ih | case6 sc fmt maxs ih | case7 sc fmt maxs ih =>
    intro q h
    simp only [Option.bind_eq_bind] at h
    obtain ⟨a, ha, h⟩ := Option.bind_eq_some_iff.1 h
    have h1 := getlong_size ha
    split at h
    · obtain ⟨b, hb, h⟩ := Option.bind_eq_some_iff.1 h
      simp only [Option.pure_def, Option.some.injEq] at h
      subst h
      exact (ih _ _ hb).trans h1
    · simp only [Option.pure_def, Option.some.injEq] at h
      subst h
      exact h1
  | case8 => intro r h; simp at h
  | case9 sc c fmt maxs _ _ _ _ _ _ sc' hc ih =>
    intro q h
    exact (ih q h).trans (eatIf_size _ sc)
  | case10 sc c fmt maxs _ _ _ _ _ _ sc' hc r hr =>
    intro q h
    simp only [Option.pure_def, Option.some.injEq] at h
    subst h
    exact (unget_size sc').trans (eatIf_size _ sc)
  | case11 sc c fmt maxs _ _ _ _ _ _ sc' hc r hr ih =>
    intro q h
    exact (ih q h).trans ((getc_size_le sc').trans (eatIf_size _ sc))

/-- a format that begins with a literal character consumes it -/
theorem vscan_size_lt (sc : Scanner) (fmt : List Char) (maxs : List Int) (vs : List Res) (sc' : Scanner)
    (h : vscan sc ('(' :: fmt) maxs = some (true, vs, sc')) : sc'.size < sc.size := by
  rw [vscan] at h
  · simp only [show isspace (chr '(') = false by decide, Bool.false_eq_true, false_or, if_false] at h
    rw [if_pos (Or.inl trivial)] at h
    split at h
    · simp at h
    · rename_i hc
      have hc : (getc (eatBlanks sc)).1 = chr '(' := by simpa using hc
      have h1 := vscan_size _ _ _ _ h
      have h2 := getc_size (sc := eatBlanks sc) (by rw [hc]; decide)
      have h3 := eatBlanks_size _ sc le_rfl
      simp only at h1
      omega
  all_goals simp
end FFTW.Scan

namespace FFTW.Planner
open FFTW.Scan

theorem importLoop_terminates (env : Env) (k : Nat) : ∀ (st : PSt) (sc : Scanner), sc.size ≤ k → importLoop env st sc ≠ none := by
  induction k using Nat.strong_induction_on with
  | _ k ih =>
    intro st sc hk
    rw [importLoop.eq_def]
    split
    · simp
    · simp
    · rename_i sc1 h1
      have h1 := vscan_size _ _ _ _ h1
      split
      · simp
      · rename_i sc2 h2
        have h2 := vscan_size_lt _ _ _ _ _ h2
        split
        · simp
        · simp
        · simp only at h1
          exact ih sc2.size (by omega) _ _ le_rfl
      · simp
      · simp

theorem imprt_terminates (env : Env) (st : PSt) (sc : Scanner) : imprt env st sc ≠ none := by
  unfold imprt
  split
  · simp
  · split
    · simp
    · split
      · simp
      · unfold importBody
        rename_i sc1 _ _ _ _ _
        have := importLoop_terminates env sc1.size st sc1 le_rfl
        simp only
        split
        · contradiction
        · simp
        · simp
        · simp
  · simp
  · simp

/-- the only part of the planner that an import may change -/
def SameBut (st st' : PSt) : Prop := st' = { st with blessed := st'.blessed }

theorem hinsert_blessed {st st' : PSt} {s : MSig} {f : FlagsT} {n : BitVec 12} (hf : bliss f ≠ 0) (h : hinsert st s f n = .ok st') : SameBut st st' := by
  unfold hinsert at h
  rw [if_pos hf] at h
  split at h
  · simp at h
  · obtain ⟨t, _, h⟩ := bind_ok h
    have h := pure_ok h
    subst h
    rfl

theorem importEntry_same {env : Env} {st st' : PSt} {buf : List Int} {id : Int} {l u tli : Nat} {sig : MSig}
    (h : importEntry env st buf id l u tli sig = .ok (some st')) : SameBut st st' := by
  unfold importEntry at h
  generalize (if upToNul buf = stimeout ∧ id = 0 then some INFEASIBLE_SLVNDX.toNat
    else if tli ≠ 0 then none else _ : Option Nat) = q at h
  simp only at h
  split at h
  · simp at h
  · split at h
    · simp at h
    · obtain ⟨r, _, h⟩ := bind_ok h
      split at h
      · obtain ⟨s1, h1, h⟩ := bind_ok h
        have h := pure_ok h
        simp only [Option.some.injEq] at h
        subst h
        exact hinsert_blessed (by simp only [bliss]; decide) h1
      · have h := pure_ok h
        simp only [Option.some.injEq] at h
        subst h
        rfl

theorem SameBut.trans {a b c : PSt} (h : SameBut a b) (h' : SameBut b c) : SameBut a c := by
  unfold SameBut at *
  rw [h'] 
  rw [h]

theorem importLoop_same {env : Env} {st st' : PSt} {sc sc' : Scanner} {b : Bool} (h : importLoop env st sc = some (.ok (b, st', sc'))) : SameBut st st' := by
  have := importLoop.partial_correctness env (fun st _ r => ∀ b st' sc', r = .ok (b, st', sc') → SameBut st st') (by
    intro f ih st sc r h
    split at h
    · simp only [Option.some.injEq] at h; subst h; simp
    · simp only [Option.some.injEq] at h
      subst h
      intro b st' sc' h
      simp only [Except.ok.injEq, Prod.mk.injEq] at h
      rw [← h.2.1]; rfl
    · split at h
      · simp only [Option.some.injEq] at h; subst h; simp
      · split at h
        · simp only [Option.some.injEq] at h; subst h; simp
        · simp only [Option.some.injEq] at h
          subst h
          intro b st' sc' h
          simp only [Except.ok.injEq, Prod.mk.injEq] at h
          rw [← h.2.1]; rfl
        · rename_i h1
          intro b st' sc' hr
          exact (importEntry_same h1).trans (ih _ _ _ h _ _ _ hr)
      · simp only [Option.some.injEq] at h; subst h; simp
      · simp only [Option.some.injEq] at h
        subst h
        intro b st' sc' h
        simp only [Except.ok.injEq, Prod.mk.injEq] at h
        rw [← h.2.1]; rfl) st sc _ h
  exact this _ _ _ rfl

theorem imprt_failed {env : Env} {st st' : PSt} {sc : Scanner} (h : imprt env st sc = some (.ok (false, st'))) : st' = st := by
  unfold imprt at h
  split at h
  · simp at h
  · split at h
    · simp at h
    · split at h
      · simp only [Option.some.injEq, Except.ok.injEq, Prod.mk.injEq, true_and] at h; exact h.symm
      · unfold importBody at h
        simp only at h
        split at h
        · simp at h
        · simp at h
        · simp at h
        · rename_i h1
          simp only [Option.some.injEq, Except.ok.injEq, Prod.mk.injEq, true_and] at h
          have := importLoop_same h1
          rw [← h, this]
  · simp at h
  · simp only [Option.some.injEq, Except.ok.injEq, Prod.mk.injEq, true_and] at h; exact h.symm

theorem imprt_same {env : Env} {st st' : PSt} {b : Bool} {sc : Scanner} (h : imprt env st sc = some (.ok (b, st'))) : SameBut st st' := by
  cases b with
  | false => rw [imprt_failed h]; rfl
  | true =>
    unfold imprt at h
    split at h
    · simp at h
    · split at h
      · simp at h
      · split at h
        · simp at h
        · unfold importBody at h
          simp only at h
          split at h
          · simp at h
          · simp at h
          · rename_i h1
            simp only [Option.some.injEq, Except.ok.injEq, Prod.mk.injEq, true_and] at h
            rw [← h]; exact importLoop_same h1
          · simp at h
    · simp at h
    · simp at h

end FFTW.Planner
