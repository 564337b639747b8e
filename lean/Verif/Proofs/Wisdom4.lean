import Verif.Proofs.Wisdom3

/-!
# Printing followed by scanning
-/

namespace FFTW.Scan
open FFTW.Print

/-- printing with `pf` gives a text from which scanning with `sf` recovers `vs`, provided the text is followed by `rest`, and leaves `left` to
be read;
`P` holds of the first character of what is read -/
def RT (pf : List Char) (ap : List Arg) (sf : List Char) (maxs : List Int) (vs : List Res) (rest left : List Int) (P : Int → Prop) : Prop :=
  ∃ text, vprint pf ap = some text ∧ (∀ c ∈ text, 0 < c ∧ c < 128) ∧ (∃ c cs, text ++ rest = c :: cs ∧ P c) ∧
    ∀ sc : Scanner, sc.view = text ++ rest → ∃ sc', vscan sc sf maxs = some (true, vs, sc') ∧ sc'.view = left

theorem RT.nil {maxs : List Int} {pf : List Char} {text rest : List Int} {P : Int → Prop} {c : Int} {cs : List Int} (h0 : vprint pf [] = some text) (ha : ∀ c ∈ text, 0 < c ∧ c < 128)
    (h : text ++ rest = c :: cs) (hp : P c) : RT pf [] [] maxs [] rest (text ++ rest) P :=
  ⟨text, h0, ha, ⟨c, cs, h, hp⟩, fun sc hs => ⟨sc, by simp [vscan], hs⟩⟩

theorem ascii_cons {c : Int} {t : List Int} (h : 0 < c ∧ c < 128) (ht : ∀ c ∈ t, 0 < c ∧ c < 128) : ∀ x ∈ c :: t, 0 < x ∧ x < 128 := by
  intro x hx
  rcases List.mem_cons.1 hx with rfl | hx
  · exact h
  · exact ht x hx

theorem ascii_append {s t : List Int} (hs : ∀ c ∈ s, 0 < c ∧ c < 128) (ht : ∀ c ∈ t, 0 < c ∧ c < 128) : ∀ x ∈ s ++ t, 0 < x ∧ x < 128 := by
  intro x hx
  rcases List.mem_append.1 hx with hx | hx
  · exact hs x hx
  · exact ht x hx

theorem vprint_lit {c : Char} (hc : c ≠ '%') (pf : List Char) (ap : List Arg) : vprint (c :: pf) ap = (vprint pf ap).bind fun r => some (chr c :: r) := by
  rw [vprint]
  · rfl
  all_goals simp [hc]

theorem vscan_lit {c : Char} (hc : c ≠ '%') (sc : Scanner) (sf : List Char) (maxs : List Int) : vscan sc (c :: sf) maxs =
    (let sc := if isspace (chr c) ∨ c = '(' ∨ c = ')' then eatBlanks sc else sc
    if isspace (chr c) then vscan sc sf maxs
    else
      let r := getc sc
      if r.1 ≠ chr c then some (false, [], ungetc r.2 r.1)
      else vscan r.2 sf maxs) := by
  rw [vscan]
  · rfl
  all_goals simp [hc]

theorem RT.lit {c : Char} (hc : c ≠ '%') (hs : isspace (chr c) = false) {pf sf : List Char} {ap : List Arg} {maxs : List Int} {vs : List Res} {rest left : List Int}
    {P : Int → Prop} (h : RT pf ap sf maxs vs rest left P) (hasc : 0 < chr c ∧ chr c < 128 := by decide) : RT (c :: pf) ap (c :: sf) maxs vs rest left (· = chr c) := by
  obtain ⟨t, h1, ha, _, h3⟩ := h
  refine ⟨chr c :: t, by rw [vprint_lit hc, h1]; rfl, ascii_cons hasc ha, ⟨_, _, rfl, rfl⟩, ?_⟩
  intro sc hv
  rw [vscan_lit hc]
  simp only [hs, Bool.false_eq_true, false_or, if_false]
  have hv' : (if c = '(' ∨ c = ')' then eatBlanks sc else sc).view = chr c :: (t ++ rest) := by
    split
    · exact eatBlanks_view [] (by simp) _ (by
        intro a as ha
        simp only [List.cons_append, List.cons.injEq] at ha
        rw [← ha.1]
        exact ⟨hs, by unfold chr EOF; omega⟩) sc (by rw [hv]; rfl)
    · exact hv
  obtain ⟨g1, g2, g3⟩ := getc_cons hv'
  rw [if_neg (by simp [g1])]
  exact h3 _ g2

theorem RT.blank {c : Char} (hc : c ≠ '%') (hs : isspace (chr c) = true) {pf sf : List Char} {ap : List Arg} {maxs : List Int} {vs : List Res} {rest left : List Int}
    {P : Int → Prop} (h : RT pf ap sf maxs vs rest left P) (hP : ∀ c, P c → isspace c = false ∧ c ≠ EOF) (hasc : 0 < chr c ∧ chr c < 128 := by decide) : RT (c :: pf) ap (c :: sf) maxs vs rest left (· = chr c) := by
  obtain ⟨t, h1, ha, ⟨a, as, h2, h2'⟩, h3⟩ := h
  refine ⟨chr c :: t, by rw [vprint_lit hc, h1]; rfl, ascii_cons hasc ha, ⟨_, _, rfl, rfl⟩, ?_⟩
  intro sc hv
  rw [vscan_lit hc]
  simp only [hs, true_or, if_true]
  apply h3
  refine eatBlanks_view [chr c] (by simpa using hs) _ ?_ sc (by rw [hv]; rfl)
  intro b bs hb
  rw [h2] at hb
  simp only [List.cons.injEq] at hb
  rw [← hb.1]
  exact hP a h2'

/-- characters a number starts with -/
def NumStart (c : Int) : Prop := isspace c = false ∧ c ≠ EOF

theorem dchar_start (d : Nat) : NumStart (dchar d) := by
  unfold NumStart dchar isspace EOF
  simp only [decide_eq_false_iff_not]
  split <;> omega

theorem dchar_ascii {l : List Nat} (h : ∀ d ∈ l, d < 16) : ∀ c ∈ l.map dchar, 0 < c ∧ c < 128 := by
  intro c hc
  obtain ⟨d, hd, rfl⟩ := List.mem_map.1 hc
  have := h d hd
  unfold dchar
  split <;> omega

theorem putulong_head {b : Nat} (hb : 2 ≤ b) (hb16 : b ≤ 16) {i : Nat} (hi : i < 2 ^ 64) {width : Int} {t : List Int} (h : putulong i b width = some t) :
    (∃ c cs, t = c :: cs ∧ NumStart c) ∧ ∀ c ∈ t, 0 < c ∧ c < 128 := by
  rw [putulong_some b hb hb16 i hi width] at h
  simp only [Option.some.injEq] at h
  have hne : (List.replicate (width - (dig b i).length).toNat 0 ++ (dig b i).reverse) ≠ [] := by simp [dig_ne]
  obtain ⟨x, xs, hx⟩ := List.exists_cons_of_ne_nil hne
  rw [hx] at h
  refine ⟨⟨dchar x, xs.map dchar, by rw [← h]; rfl, dchar_start x⟩, ?_⟩
  rw [← h]
  apply dchar_ascii
  rw [← hx]
  intro d hd
  rcases List.mem_append.1 hd with hd | hd
  · rw [List.eq_of_mem_replicate hd]; norm_num
  · exact lt_of_lt_of_le (dig_lt b hb i d (List.mem_reverse.1 hd)) hb16

theorem putint_head {i : Int} (hi : -INT_MAX ≤ i) (hi' : i ≤ INT_MAX) {t : List Int} (h : putint i = some t) : (∃ c cs, t = c :: cs ∧ NumStart c) ∧ ∀ c ∈ t, 0 < c ∧ c < 128 := by
  rw [putint_some i hi hi'] at h
  simp only [Option.some.injEq] at h
  have hda : ∀ c ∈ (dig 10 i.natAbs).reverse.map dchar, 0 < c ∧ c < 128 := by
    apply dchar_ascii
    intro d hd
    exact lt_trans (dig_lt 10 (by norm_num) _ d (List.mem_reverse.1 hd)) (by norm_num)
  split at h
  · refine ⟨⟨_, _, h.symm, by unfold NumStart; decide⟩, ?_⟩
    rw [← h]
    exact ascii_append (by decide) hda
  · have hne : (dig 10 i.natAbs).reverse ≠ [] := by simp [dig_ne]
    obtain ⟨x, xs, hx⟩ := List.exists_cons_of_ne_nil hne
    rw [hx] at h
    refine ⟨⟨dchar x, xs.map dchar, by rw [← h]; rfl, dchar_start x⟩, ?_⟩
    rw [← h, ← hx]
    exact hda

theorem stops_of {t rest : List Int} {c : Int} {cs : List Int} {P : Int → Prop} (h2 : t ++ rest = c :: cs) (hp : P c) (hP : ∀ c, P c → digitVal c = none ∧ c ≠ EOF) :
    Stops (t ++ rest) := by
  intro a as ha
  rw [h2] at ha
  simp only [List.cons.injEq] at ha
  rw [← ha.1]
  exact hP c hp

theorem RT.md5 {pf sf : List Char} {ap : List Arg} {maxs : List Int} {vs : List Res} {rest left : List Int}
    {P : Int → Prop} (x : Nat) (hx : x < 2 ^ 32) (h : RT pf ap sf maxs vs rest left P) (hP : ∀ c, P c → digitVal c = none ∧ c ≠ EOF) :
    RT ('%' :: 'M' :: pf) (.md5 x :: ap) ('%' :: 'M' :: sf) maxs (.md5 x :: vs) rest left NumStart := by
  obtain ⟨t, h1, ha, ⟨c, cs, h2, h2'⟩, h3⟩ := h
  obtain ⟨a, k1, k2⟩ := putulong_getlong 16 (by norm_num) (by norm_num) (x % 2 ^ 32) (by unfold INT_MAX; omega) 8
  obtain ⟨⟨b, bs, k3, k4⟩, k5⟩ := putulong_head (by norm_num) (by norm_num) (by omega) k1
  refine ⟨a ++ t, ?_, ascii_append k5 ha, ⟨b, bs ++ (t ++ rest), by rw [k3, List.append_assoc]; rfl, k4⟩, ?_⟩
  · rw [vprint, k1, h1]; rfl
  · intro sc hv
    obtain ⟨sc1, g1, g2⟩ := k2 (t ++ rest) sc (stops_of h2 h2' hP) (by rw [hv, List.append_assoc])
    obtain ⟨sc2, g3, g4⟩ := h3 sc1 g2
    refine ⟨sc2, ?_, g4⟩
    rw [vscan]
    have g1' : getlong sc 16 = some (((x % 2 ^ 32 : Nat) : Int), true, sc1) := g1
    rw [g1']
    simp only [Option.bind_eq_bind, Option.bind_some, if_true]
    rw [g3]
    simp only [Option.bind_some, Option.pure_def, Option.some.injEq, Prod.mk.injEq, true_and, and_true, List.cons.injEq, Res.md5.injEq]
    omega

theorem toInt32_small {x : Int} (h : -2 ^ 31 ≤ x) (h' : x < 2 ^ 31) : toInt32 x = x := by unfold toInt32; omega

theorem RT.hex {pf sf : List Char} {ap : List Arg} {maxs : List Int} {vs : List Res} {rest left : List Int}
    {P : Int → Prop} (x : Nat) (hx : x < 2 ^ 31) (h : RT pf ap sf maxs vs rest left P) (hP : ∀ c, P c → digitVal c = none ∧ c ≠ EOF) :
    RT ('%' :: 'x' :: pf) (.uns x :: ap) ('%' :: 'x' :: sf) maxs (.int x :: vs) rest left NumStart := by
  obtain ⟨t, h1, ha, ⟨c, cs, h2, h2'⟩, h3⟩ := h
  obtain ⟨a, k1, k2⟩ := putulong_getlong 16 (by norm_num) (by norm_num) x (by unfold INT_MAX; omega) 0
  obtain ⟨⟨b, bs, k3, k4⟩, k5⟩ := putulong_head (by norm_num) (by norm_num) (by omega) k1
  refine ⟨a ++ t, ?_, ascii_append k5 ha, ⟨b, bs ++ (t ++ rest), by rw [k3, List.append_assoc]; rfl, k4⟩, ?_⟩
  · rw [vprint, k1, h1]; rfl
  · intro sc hv
    obtain ⟨sc1, g1, g2⟩ := k2 (t ++ rest) sc (stops_of h2 h2' hP) (by rw [hv, List.append_assoc])
    obtain ⟨sc2, g3, g4⟩ := h3 sc1 g2
    refine ⟨sc2, ?_, g4⟩
    rw [vscan]
    have g1' : getlong sc 16 = some ((x : Int), true, sc1) := g1
    rw [g1']
    simp only [Option.bind_eq_bind, Option.bind_some, if_true]
    rw [g3, toInt32_small (by omega) (by omega)]
    rfl

theorem RT.dec {pf sf : List Char} {ap : List Arg} {maxs : List Int} {vs : List Res} {rest left : List Int}
    {P : Int → Prop} (x : Int) (hx : -2 ^ 31 ≤ x) (hx' : x < 2 ^ 31) (h : RT pf ap sf maxs vs rest left P) (hP : ∀ c, P c → digitVal c = none ∧ c ≠ EOF) :
    RT ('%' :: 'd' :: pf) (.int x :: ap) ('%' :: 'd' :: sf) maxs (.int x :: vs) rest left NumStart := by
  obtain ⟨t, h1, ha, ⟨c, cs, h2, h2'⟩, h3⟩ := h
  have i1 : -INT_MAX ≤ x := by unfold INT_MAX; omega
  have i2 : x ≤ INT_MAX := by unfold INT_MAX; omega
  obtain ⟨a, k1, k2⟩ := putint_getlong x i1 i2
  obtain ⟨⟨b, bs, k3, k4⟩, k5⟩ := putint_head i1 i2 k1
  refine ⟨a ++ t, ?_, ascii_append k5 ha, ⟨b, bs ++ (t ++ rest), by rw [k3, List.append_assoc]; rfl, k4⟩, ?_⟩
  · rw [vprint, k1, h1]; rfl
  · intro sc hv
    obtain ⟨sc1, g1, g2⟩ := k2 (t ++ rest) sc (stops_of h2 h2' hP) (by rw [hv, List.append_assoc])
    obtain ⟨sc2, g3, g4⟩ := h3 sc1 g2
    refine ⟨sc2, ?_, g4⟩
    rw [vscan, g1]
    simp only [Option.bind_eq_bind, Option.bind_some, if_true]
    rw [g3, toInt32_small hx hx']
    rfl

theorem RT.str {pf sf : List Char} {ap : List Arg} {maxs : List Int} {vs : List Res} {rest left : List Int}
    {P : Int → Prop} (s : List Int) (n : Int) (hn : (s.length : Int) ≤ n) (hn0 : 0 < n) (hs : ∀ c ∈ s, nameChar c ∧ 0 < c ∧ c < 128)
    (h : RT pf ap sf maxs vs rest left P) (hP : ∀ c, P c → ¬ nameChar c ∧ c ≠ EOF) :
    RT ('%' :: 's' :: pf) (.str s :: ap) ('%' :: '*' :: 's' :: sf) (n :: maxs) (.str s :: vs) rest left (fun _ => True) := by
  obtain ⟨t, h1, ha, ⟨c, cs, h2, h2'⟩, h3⟩ := h
  refine ⟨s ++ t, ?_, ascii_append (fun c hc => (hs c hc).2) ha, ?_, ?_⟩
  · rw [vprint, h1]; rfl
  · cases s with
    | nil => exact ⟨c, cs, by simpa using h2, trivial⟩
    | cons a s => exact ⟨a, s ++ t ++ rest, by simp, trivial⟩
  · intro sc hv
    obtain ⟨g1, g2⟩ := mygetsLoop_name n.toNat s (fun c hc => ⟨(hs c hc).1, by have := hs c hc; omega, by have := hs c hc; omega⟩) (t ++ rest) (by
      intro a as ha
      rw [h2] at ha
      simp only [List.cons.injEq] at ha
      rw [← ha.1]
      exact hP c h2') sc 0 (by omega) (by rw [hv, List.append_assoc])
    obtain ⟨sc2, g3, g4⟩ := h3 _ g2
    refine ⟨sc2, ?_, g4⟩
    rw [vscan, if_neg (by omega)]
    simp only [mygets, Option.bind_eq_bind]
    rw [g3, g1]
    rfl

end FFTW.Scan
