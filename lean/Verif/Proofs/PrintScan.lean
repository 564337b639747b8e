import Verif.Model.Scan
import Verif.Proofs.Primes1
import Mathlib.Tactic.IntervalCases

namespace FFTW.Scan
open FFTW.Print FFTW.Primes

/-- the characters a scanner will deliver -/
def Scanner.view (sc : Scanner) : List Int := if sc.ungotc ≠ EOF then sc.ungotc :: sc.rest else sc.rest

theorem view_mk (l : List Int) : (mkScanner l).view = l := by simp [Scanner.view, mkScanner]

theorem getc_cons {sc : Scanner} {c : Int} {cs : List Int} (h : sc.view = c :: cs) :
    (getc sc).1 = c ∧ (getc sc).2.view = cs ∧ (getc sc).2.ungotc = EOF := by
  unfold Scanner.view at h
  unfold getc
  split at h
  · rename_i hu
    rw [if_pos hu]
    simp at h
    simp [Scanner.view, h]
  · rename_i hu
    have hu' : sc.ungotc = EOF := by simpa using hu
    rw [if_neg hu, h]
    simp [Scanner.view, hu']

theorem getc_nil {sc : Scanner} (h : sc.view = []) :
    (getc sc).1 = EOF ∧ (getc sc).2.view = [] ∧ (getc sc).2.ungotc = EOF := by
  unfold Scanner.view at h
  unfold getc
  split at h
  · simp at h
  · rename_i hu
    have hu' : sc.ungotc = EOF := by simpa using hu
    rw [if_neg hu, h]
    simp [Scanner.view, hu', h]

theorem view_ungetc {sc : Scanner} (h : sc.ungotc = EOF) (c : Int) (hc : c ≠ EOF) : (ungetc sc c).view = c :: sc.view := by
  simp [Scanner.view, ungetc, h, hc]

theorem view_ungetc_EOF {sc : Scanner} (h : sc.ungotc = EOF) : (ungetc sc EOF).view = sc.view := by
  simp [Scanner.view, ungetc, h]

/-- reading past blanks -/
theorem eatBlanks_view (bl : List Int) (hb : ∀ c ∈ bl, isspace c = true) (rest : List Int)
    (hr : ∀ c cs, rest = c :: cs → isspace c = false ∧ c ≠ EOF) :
    ∀ sc : Scanner, sc.view = bl ++ rest → (eatBlanks sc).view = rest := by
  induction bl with
  | nil =>
    intro sc h
    rw [eatBlanks]
    simp only [List.nil_append] at h
    match rest, hr, h with
    | [], _, h =>
      obtain ⟨h1, h2, h3⟩ := getc_nil h
      simp only [h1]
      rw [dif_neg (by decide), view_ungetc_EOF h3, h2]
    | c :: cs, hr, h =>
      obtain ⟨h1, h2, h3⟩ := getc_cons h
      obtain ⟨h4, h5⟩ := hr c cs rfl
      simp only [h1]
      rw [dif_neg (by simp [h4]), view_ungetc h3 c h5, h2]
  | cons b bl ih =>
    intro sc h
    rw [eatBlanks]
    obtain ⟨h1, h2, h3⟩ := getc_cons h
    simp only [h1]
    rw [dif_pos (hb b (by simp))]
    exact ih (fun c hc => hb c (by simp [hc])) _ h2

/-! ### digits -/

/-- digit characters -/
def dchar (d : Nat) : Int := if d < 10 then 48 + d else 87 + d

theorem digits_get (d : Nat) (h : d < 16) : digits[d]? = some (dchar d) := by
  interval_cases d <;> decide

theorem digitVal_dchar (d : Nat) (h : d < 16) : digitVal (dchar d) = some (d : Int) := by
  interval_cases d <;> decide

/-- least-significant-first digits, at least one -/
def dig (b : Nat) (i : Nat) : List Nat :=
  if h : 2 ≤ b ∧ i / b ≠ 0 then i % b :: dig b (i / b) else [i % b]
termination_by i
decreasing_by
  have : 0 < i := by
    rcases Nat.eq_zero_or_pos i with h0 | h0
    · subst h0; simp at h
    · exact h0
  exact Nat.div_lt_self this (by omega)

theorem dig_lt (b : Nat) (hb : 2 ≤ b) (i : Nat) : ∀ d ∈ dig b i, d < b := by
  induction i using Nat.strong_induction_on with
  | _ i ih =>
    intro d hd
    rw [dig] at hd
    split at hd
    · rename_i h
      rcases List.mem_cons.1 hd with rfl | hd
      · exact Nat.mod_lt _ (by omega)
      · refine ih (i / b) ?_ d hd
        refine Nat.div_lt_self ?_ (by omega)
        rcases Nat.eq_zero_or_pos i with h0 | h0
        · subst h0; simp at h
        · exact h0
    · simp at hd; subst hd; exact Nat.mod_lt _ (by omega)

theorem dig_ne (b i : Nat) : dig b i ≠ [] := by
  rw [dig]; split <;> simp

theorem dig_val (b : Nat) (hb : 2 ≤ b) (i : Nat) : (dig b i).reverse.foldl (fun x d => x * b + d) 0 = i := by
  induction i using Nat.strong_induction_on with
  | _ i ih =>
    rw [dig]
    split
    · rename_i h
      have hlt : i / b < i := by
        refine Nat.div_lt_self ?_ (by omega)
        rcases Nat.eq_zero_or_pos i with h0 | h0
        · subst h0; simp at h
        · exact h0
      rw [List.reverse_cons, List.foldl_append, ih _ hlt]
      simp only [List.foldl_cons, List.foldl_nil]
      exact Nat.div_add_mod' i b
    · rename_i h
      have h0 : i / b = 0 := by
        by_contra hc; exact h ⟨hb, hc⟩
      simp only [List.reverse_singleton, List.foldl_cons, List.foldl_nil, Nat.zero_mul, Nat.zero_add]
      have := Nat.div_add_mod' i b
      rw [h0] at this; omega

theorem dig_len (b : Nat) (hb : 2 ≤ b) (k : Nat) : ∀ i, i < 2 ^ (k + 1) → (dig b i).length ≤ k + 1 := by
  induction k with
  | zero =>
    intro i hi
    rw [dig]
    have : i / b = 0 := Nat.div_eq_of_lt (by omega)
    simp [this]
  | succ k ih =>
    intro i hi
    rw [dig]
    split
    · simp only [List.length_cons]
      have : i / b < 2 ^ (k + 1) := by
        have h1 : i / b ≤ i / 2 := Nat.div_le_div_left hb (by omega)
        rw [pow_succ] at hi
        omega
      have := ih _ this
      omega
    · simp

theorem digitLoop_some (b : Nat) (hb : 2 ≤ b) (hb16 : b ≤ 16) (i : Nat) : ∀ buf : List Int, buf.length + (dig b i).length ≤ 64 →
    digitLoop b i buf = some (buf ++ (dig b i).map dchar) := by
  induction i using Nat.strong_induction_on with
  | _ i ih =>
    intro buf hlen
    have hmod : i % b < 16 := lt_of_lt_of_le (Nat.mod_lt _ (by omega)) hb16
    have hpos := List.length_pos_iff.2 (dig_ne b i)
    rw [digitLoop, if_neg (by omega), digits_get _ hmod]
    simp only [Option.bind_eq_bind, Option.bind_some]
    rw [if_pos (by omega)]
    rw [dig] at hlen ⊢
    split
    · rename_i h
      rw [dif_pos ⟨hb, h⟩] at hlen ⊢
      simp only [List.length_cons] at hlen
      rw [ih (i / b) ?_ _ (by simp; omega)]
      · simp
      · refine Nat.div_lt_self ?_ (by omega)
        rcases Nat.eq_zero_or_pos i with h0 | h0
        · subst h0; simp at h
        · exact h0
    · rename_i h
      rw [dif_neg (by tauto)]
      rfl

theorem putulong_some (b : Nat) (hb : 2 ≤ b) (hb16 : b ≤ 16) (i : Nat) (hi : i < 2 ^ 64) (width : Int) :
    putulong i b width = some ((List.replicate (width - (dig b i).length).toNat 0 ++ (dig b i).reverse).map dchar) := by
  unfold putulong
  have := dig_len b hb 63 i hi
  rw [digitLoop_some b hb hb16 i [] (by simpa using this)]
  simp only [Option.bind_eq_bind, Option.bind_some, List.nil_append, List.length_map]
  change some _ = some _
  simp [dchar, chr]

theorem putint_some (i : Int) (hi : -INT_MAX ≤ i) (hi' : i ≤ INT_MAX) :
    putint i = some ((if i < 0 then [chr '-'] else []) ++ (dig 10 i.natAbs).reverse.map dchar) := by
  unfold INT_MAX at hi hi'
  unfold putint
  have hl : (dig 10 i.natAbs).length ≤ 64 := dig_len 10 (by norm_num) 63 _ (by norm_num; omega)
  split
  · rw [csub_some (by rw [isINT_iff]; omega)]
    simp only [Option.bind_eq_bind, Option.bind_some]
    rw [show (0 - i).toNat = i.natAbs by omega, digitLoop_some 10 (by norm_num) (by norm_num) _ [] (by simpa using hl)]
    simp
  · simp only [Option.bind_eq_bind]
    rw [show i.toNat = i.natAbs by omega, digitLoop_some 10 (by norm_num) (by norm_num) _ [] (by simpa using hl)]
    simp

/-! ### reading digits -/

/-- a rest of the input at which a number ends: it does not start with a letter or digit (or `EOF`) -/
def Stops (rest : List Int) : Prop := ∀ c cs, rest = c :: cs → digitVal c = none ∧ c ≠ EOF

theorem foldl_mono (b : Nat) (ds : List Nat) : ∀ x : Nat, x ≤ ds.foldl (fun x d => x * b + d) x ∨ b = 0 := by
  induction ds with
  | nil => intro x; left; simp
  | cons d ds ih =>
    intro x
    rcases Nat.eq_zero_or_pos b with h | h
    · right; exact h
    · left
      rcases ih (x * b + d) with h1 | h1
      · simp only [List.foldl_cons]
        have : x ≤ x * b := Nat.le_mul_of_pos_right _ h
        omega
      · omega

theorem getlongLoop_some (b : Nat) (hb : 2 ≤ b) (ds : List Nat) (hds : ∀ d ∈ ds, d < 16) (rest : List Int) (hstop : Stops rest) :
    ∀ (x count : Nat) (sc : Scanner), sc.view = ds.map dchar ++ rest → ((ds.foldl (fun x d => x * b + d) x : Nat) : Int) ≤ INT_MAX →
    ∃ sc' ch, getlongLoop b (getc sc).2 (getc sc).1 x count =
      some (((ds.foldl (fun x d => x * b + d) x : Nat) : Int), count + ds.length, ch, sc') ∧ (ungetc sc' ch).view = rest := by
  induction ds with
  | nil =>
    intro x count sc hv _
    simp only [List.map_nil, List.nil_append] at hv
    rw [getlongLoop]
    match rest, hstop, hv with
    | [], _, hv =>
      obtain ⟨h1, h2, h3⟩ := getc_nil hv
      refine ⟨(getc sc).2, EOF, ?_, by rw [view_ungetc_EOF h3, h2]⟩
      rw [h1, show digitVal EOF = none by decide]
      simp
    | c :: cs, hstop, hv =>
      obtain ⟨h1, h2, h3⟩ := getc_cons hv
      obtain ⟨h4, h5⟩ := hstop c cs rfl
      refine ⟨(getc sc).2, c, ?_, by rw [view_ungetc h3 c h5, h2]⟩
      rw [h1, h4]
      simp
  | cons d ds ih =>
    intro x count sc hv hI
    obtain ⟨h1, h2, h3⟩ := getc_cons hv
    rw [getlongLoop, h1, digitVal_dchar d (hds d (by simp))]
    have hmono : x * b + d ≤ (d :: ds).foldl (fun x d => x * b + d) x := by
      rcases foldl_mono b ds (x * b + d) with h | h
      · exact h
      · omega
    have hxI : ((x * b + d : Nat) : Int) ≤ INT_MAX := le_trans (by exact_mod_cast hmono) hI
    have hxI' : (x : Int) * b + d ≤ 9223372036854775807 := by unfold INT_MAX at hxI; push_cast at hxI; omega
    have hx0 : (0 : Int) ≤ (x : Int) * b := by positivity
    simp only []
    rw [cmul_some (by rw [isINT_iff]; omega)]
    simp only [Option.bind_eq_bind, Option.bind_some]
    rw [cadd_some (by rw [isINT_iff]; omega)]
    simp only [Option.bind_some]
    rw [show (x : Int) * b + d = ((x * b + d : Nat) : Int) by push_cast; rfl]
    obtain ⟨sc', ch, h6, h7⟩ := ih (fun d hd => hds d (by simp [hd])) (x * b + d) (count + 1) (getc sc).2 h2 hI
    refine ⟨sc', ch, ?_, h7⟩
    rw [h6]
    simp only [List.foldl_cons, List.length_cons]
    rw [show count + 1 + ds.length = count + (ds.length + 1) by omega]

theorem getlong_nosign (b : Nat) (hb : 2 ≤ b) (ds : List Nat) (hne : ds ≠ []) (hds : ∀ d ∈ ds, d < 16) (rest : List Int) (hstop : Stops rest)
    (sc : Scanner) (hv : sc.view = ds.map dchar ++ rest) (hI : ((ds.foldl (fun x d => x * b + d) 0 : Nat) : Int) ≤ INT_MAX) :
    ∃ sc', getlong sc b = some (((ds.foldl (fun x d => x * b + d) 0 : Nat) : Int), true, sc') ∧ sc'.view = rest := by
  obtain ⟨sc', ch, h1, h2⟩ := getlongLoop_some b hb ds hds rest hstop 0 0 sc hv hI
  match ds, hne, hds, hv with
  | d :: ds, _, hds, hv =>
    obtain ⟨g1, g2, g3⟩ := getc_cons hv
    have hd := hds d (by simp)
    have hns : ¬ ((getc sc).1 = chr '-' ∨ (getc sc).1 = chr '+') := by
      rw [g1]
      interval_cases d <;> decide
    refine ⟨ungetc sc' ch, ?_, h2⟩
    unfold getlong
    simp only [hns, if_false]
    have h1' : getlongLoop (↑b) (getc sc).2 (getc sc).1 0 0 = _ := h1
    rw [h1']
    simp only [Option.bind_eq_bind, Option.bind_some]
    have hI' := hI
    unfold INT_MAX at hI'
    rw [cmul_some (by rw [isINT_iff]; omega)]
    simp

theorem getlong_neg (b : Nat) (hb : 2 ≤ b) (ds : List Nat) (hne : ds ≠ []) (hds : ∀ d ∈ ds, d < 16) (rest : List Int) (hstop : Stops rest)
    (sc : Scanner) (hv : sc.view = chr '-' :: (ds.map dchar ++ rest)) (hI : ((ds.foldl (fun x d => x * b + d) 0 : Nat) : Int) ≤ INT_MAX) :
    ∃ sc', getlong sc b = some (-((ds.foldl (fun x d => x * b + d) 0 : Nat) : Int), true, sc') ∧ sc'.view = rest := by
  obtain ⟨g1, g2, g3⟩ := getc_cons hv
  obtain ⟨sc', ch, h1, h2⟩ := getlongLoop_some b hb ds hds rest hstop 0 0 (getc sc).2 g2 hI
  match ds, hne, hds, hv with
  | d :: ds, _, hds, hv =>
    refine ⟨ungetc sc' ch, ?_, h2⟩
    unfold getlong
    simp only [g1, true_or, if_true]
    have h1' : getlongLoop (↑b) (getc (getc sc).2).2 (getc (getc sc).2).1 0 0 = _ := h1
    rw [h1']
    simp only [Option.bind_eq_bind, Option.bind_some]
    have hI' := hI
    unfold INT_MAX at hI'
    rw [cmul_some (by rw [isINT_iff]; omega)]
    simp

theorem foldl_zeros (b k : Nat) (ds : List Nat) :
    (List.replicate k 0 ++ ds).foldl (fun x d => x * b + d) 0 = ds.foldl (fun x d => x * b + d) 0 := by
  induction k with
  | zero => simp
  | succ k ih => simpa [List.replicate_succ] using ih

/-- print unsigned, scan: same value, and the scanner is left exactly after it -/
theorem putulong_getlong (b : Nat) (hb : 2 ≤ b) (hb16 : b ≤ 16) (i : Nat) (hi : (i : Int) ≤ INT_MAX) (width : Int) :
    ∃ cs, putulong i b width = some cs ∧ ∀ (rest : List Int) (sc : Scanner), Stops rest → sc.view = cs ++ rest →
      ∃ sc', getlong sc b = some ((i : Int), true, sc') ∧ sc'.view = rest := by
  have hi' := hi
  unfold INT_MAX at hi'
  refine ⟨_, putulong_some b hb hb16 i (by norm_num; omega) width, ?_⟩
  intro rest sc hs hv
  have hval := dig_val b hb i
  have hval2 := foldl_zeros b (width - (dig b i).length).toNat (dig b i).reverse
  rw [hval] at hval2
  have := getlong_nosign b hb (List.replicate (width - (dig b i).length).toNat 0 ++ (dig b i).reverse) (by simp [dig_ne])
    (by
      intro d hd
      rcases List.mem_append.1 hd with hd | hd
      · have := List.eq_of_mem_replicate hd; omega
      · exact lt_of_lt_of_le (dig_lt b hb i d (by simpa using hd)) hb16) rest hs sc hv (by rw [hval2]; exact hi)
  rw [hval2] at this
  exact this

theorem putint_getlong (i : Int) (hi : -INT_MAX ≤ i) (hi' : i ≤ INT_MAX) :
    ∃ cs, putint i = some cs ∧ ∀ (rest : List Int) (sc : Scanner), Stops rest → sc.view = cs ++ rest →
      ∃ sc', getlong sc 10 = some (i, true, sc') ∧ sc'.view = rest := by
  refine ⟨_, putint_some i hi hi', ?_⟩
  intro rest sc hs hv
  have hval := dig_val 10 (by norm_num) i.natAbs
  have hd : ∀ d ∈ (dig 10 i.natAbs).reverse, d < 16 := fun d hd =>
    lt_trans (dig_lt 10 (by norm_num) _ d (by simpa using hd)) (by norm_num)
  have hIv : ((i.natAbs : Nat) : Int) ≤ INT_MAX := by unfold INT_MAX at *; omega
  split at hv
  · have := getlong_neg 10 (by norm_num) (dig 10 i.natAbs).reverse (by simp [dig_ne]) hd rest hs sc (by simpa using hv) (by rw [hval]; exact hIv)
    rw [hval] at this
    rw [show -((i.natAbs : Nat) : Int) = i by omega] at this
    exact this
  · have := getlong_nosign 10 (by norm_num) (dig 10 i.natAbs).reverse (by simp [dig_ne]) hd rest hs sc (by simpa using hv) (by rw [hval]; exact hIv)
    rw [hval] at this
    rw [show ((i.natAbs : Nat) : Int) = i by omega] at this
    exact this

/-! ### mygets -/

/-- characters that end a name -/
def nameChar (c : Int) : Prop := c ≠ EOF ∧ isspace c = false ∧ c ≠ chr ')' ∧ c ≠ chr '('

theorem mygetsLoop_len (maxlen : Nat) (k : Nat) : ∀ (sc : Scanner) (s : Nat), maxlen - s ≤ k → (mygetsLoop sc s maxlen).1.length ≤ maxlen - s := by
  induction k with
  | zero =>
    intro sc s hk
    rw [mygetsLoop, dif_neg (by omega)]; simp
  | succ k ih =>
    intro sc s hk
    rw [mygetsLoop]
    split
    · rename_i h
      have := ih (getc sc).2 (s + 1) (by omega)
      simp only [List.length_cons]
      omega
    · simp

/-- with `maxlen + 1` cells the destination is never overrun; it holds the name, a NUL, and is otherwise untouched -/
theorem mygetsBufLoop_some (maxlen : Nat) (k : Nat) : ∀ (sc : Scanner) (s : Nat) (pre : List (Option Int)) (junk : List (Option Int)),
    maxlen - s ≤ k → pre.length = s → s ≤ maxlen → maxlen + 1 ≤ s + junk.length →
    mygetsBufLoop sc (pre ++ junk) s maxlen =
      some (pre ++ ((mygetsLoop sc s maxlen).1.map some ++ some 0 :: junk.drop ((mygetsLoop sc s maxlen).1.length + 1)),
        (mygetsLoop sc s maxlen).2) := by
  induction k with
  | zero =>
    intro sc s pre junk hk hp hs hj
    rw [mygetsBufLoop, dif_neg (by omega), mygetsLoop, dif_neg (by omega)]
    match junk, hj with
    | j :: junk, _ =>
      simp [CBuf.store, ← hp]
    | [], hj => simp at hj; omega
  | succ k ih =>
    intro sc s pre junk hk hp hs hj
    match junk, hj with
    | [], hj => simp at hj; omega
    | j :: junk, hj =>
      rw [mygetsBufLoop, mygetsLoop]
      split
      · rename_i h
        have hst : CBuf.store (pre ++ j :: junk) s ((getc sc).1 % 256) = some ((pre ++ [some ((getc sc).1 % 256)]) ++ junk) := by
          simp [CBuf.store, ← hp]
        rw [hst]
        simp only []
        rw [ih _ _ _ _ (by omega) (by simp [hp]) (by omega) (by simp at hj; omega)]
        simp
      · simp [CBuf.store, ← hp]

theorem mygetsLoop_name (maxlen : Nat) (name : List Int) (hn : ∀ c ∈ name, nameChar c ∧ 0 ≤ c ∧ c < 256) (rest : List Int)
    (hr : ∀ c cs, rest = c :: cs → ¬ nameChar c ∧ c ≠ EOF) :
    ∀ (sc : Scanner) (s : Nat), s + name.length ≤ maxlen → sc.view = name ++ rest →
    (mygetsLoop sc s maxlen).1 = name ∧ (mygetsLoop sc s maxlen).2.view = rest := by
  induction name with
  | nil =>
    intro sc s hlen hv
    simp only [List.nil_append] at hv
    rw [mygetsLoop]
    match rest, hr, hv with
    | [], _, hv =>
      obtain ⟨h1, h2, h3⟩ := getc_nil hv
      simp only [h1, ne_eq, not_true_eq_false, false_and, dite_false, true_and]
      rw [view_ungetc_EOF h3, h2]
    | c :: cs, hr, hv =>
      obtain ⟨h1, h2, h3⟩ := getc_cons hv
      obtain ⟨h4, h5⟩ := hr c cs rfl
      simp only [h1]
      rw [dif_neg (by rintro ⟨a, b, c, d, e⟩; exact h4 ⟨a, b, c, d⟩)]
      exact ⟨rfl, by rw [view_ungetc h3 c h5, h2]⟩
  | cons a name ih =>
    intro sc s hlen hv
    obtain ⟨h1, h2, h3⟩ := getc_cons hv
    obtain ⟨⟨n1, n2, n3, n4⟩, n5, n6⟩ := hn a (by simp)
    simp only [List.length_cons] at hlen
    rw [mygetsLoop]
    simp only [h1]
    rw [dif_pos ⟨n1, n2, n3, n4, by omega⟩]
    obtain ⟨h4, h5⟩ := ih (fun c hc => hn c (by simp [hc])) (getc sc).2 (s + 1) (by omega) h2
    simp only [h4, h5, and_true]
    rw [Int.emod_eq_of_lt n5 n6]

end FFTW.Scan

namespace FFTW.Print

theorem cnt_eq (cs : List Int) : cntPrinter cs = cs.length := by
  have : ∀ (cs : List Int) (n : Nat), cs.foldl (fun cnt _ => cnt + 1) n = n + cs.length := by
    intro cs
    induction cs with
    | nil => simp
    | cons c cs ih => intro n; rw [List.foldl_cons, ih]; simp; omega
  rw [cntPrinter, this]; omega

theorem runPut_str (cs : List Int) : ∀ (pre : List Int) (junk : List (Option Int)), junk.length = cs.length →
    runPut putchrStr (pre.map some ++ some 0 :: junk, pre.length) cs = some ((pre ++ cs).map some ++ [some 0], pre.length + cs.length) := by
  induction cs with
  | nil => intro pre junk h; simp at h; subst h; simp [runPut]
  | cons c cs ih =>
    intro pre junk h
    match junk, h with
    | j :: junk, h =>
      simp only [List.length_cons, Nat.add_right_cancel_iff] at h
      rw [runPut]
      have h1 : putchrStr (pre.map some ++ some 0 :: j :: junk, pre.length) c =
          some ((pre ++ [c]).map some ++ some 0 :: junk, (pre ++ [c]).length) := by
        unfold putchrStr CBuf.store
        have hset1 : (pre.map some ++ some 0 :: j :: junk).set pre.length (some c) = pre.map some ++ some c :: j :: junk := by
          rw [List.set_append_right _ _ (by simp)]; simp
        have hset2 : (pre.map some ++ some c :: j :: junk).set (pre.length + 1) (some 0) = pre.map some ++ some c :: some 0 :: junk := by
          rw [List.set_append_right _ _ (by simp)]; simp
        simp [hset1, hset2]
      rw [h1]
      simp only [Option.bind_eq_bind, Option.bind_some]
      rw [ih (pre ++ [c]) junk h]
      simp; omega

theorem exportToString_some (cs : List Int) : exportToString cs = some (cs.map some ++ [some 0]) := by
  unfold exportToString mkprinterStr CBuf.store
  rw [cnt_eq]
  simp only [List.length_replicate, Nat.zero_lt_succ, if_true, Option.bind_eq_bind, Option.bind_some]
  have h := runPut_str cs [] (List.replicate cs.length none) (by simp)
  simp only [List.map_nil, List.nil_append, List.length_nil, Nat.zero_add] at h
  have e : (List.replicate (cs.length + 1) (none : Option Int)).set 0 (some 0) = some 0 :: List.replicate cs.length none := by
    rw [List.replicate_succ]; rfl
  rw [e]
  simp only [pure, Option.bind_some]
  rw [h]
  rfl

theorem exportToFile_some (cs : List Int) : exportToFile cs = some cs := by
  have : ∀ (cs : List Int) (p : FilePrinter), p.buf.length ≤ 256 → ∃ p', runPut myputchr p cs = some p' ∧
      p'.buf.length ≤ 256 ∧ (myflush p').file = p.file ++ p.buf ++ cs := by
    intro cs
    induction cs with
    | nil => intro p hp; exact ⟨p, rfl, hp, by simp [myflush]⟩
    | cons c cs ih =>
      intro p hp
      have h1 : ∃ p1, myputchr p c = some p1 ∧ p1.buf.length ≤ 256 ∧ p1.file ++ p1.buf = p.file ++ p.buf ++ [c] := by
        unfold myputchr
        by_cases h : p.buf.length ≥ 256
        · simp [h, myflush]
        · rw [if_neg h]
          simp only []
          rw [if_pos (by omega)]
          exact ⟨_, rfl, by simp; omega, by simp⟩
      obtain ⟨p1, h2, h3, h4⟩ := h1
      obtain ⟨p', h5, h6, h7⟩ := ih p1 h3
      refine ⟨p', ?_, h6, ?_⟩
      · rw [runPut, h2]; exact h5
      · rw [h7, h4]; simp
  obtain ⟨p', h1, _, h2⟩ := this cs { file := [], buf := [] } (by simp)
  unfold exportToFile
  rw [h1]
  simp only [Option.bind_eq_bind, Option.bind_some]
  change some _ = some _
  rw [h2]; simp

end FFTW.Print
