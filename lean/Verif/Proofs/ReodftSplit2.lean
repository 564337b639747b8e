import Verif.Proofs.ReodftSplit

/-!
# reodft00e-splitradix is correct: the solver
-/

namespace FFTW.Reodft
open Tensor Spec Finset RdftS DftS

section
variable {m : ℕ} {is os : ℤ} {nd : Bool} {clde : Plan}

theorem mid_E (h : R1 .REDFT00 (m + 1) (2 * is) os false nd clde.rdftApply) :
    Mid .REDFT00 (2 * m + 1) (m + 1) 0 is os false nd clde.rdftApply := by
  intro ho hi I O st bI bO _ hout
  obtain ⟨h1, h2, h3⟩ := h (RInj.mono ho (by omega)) (fun hn => RInj.double (hi hn) (by omega)) I O st bI bO (by simp) (fun _ j hj k hk => by
    have := hout rfl (2 * j) (by omega) k (by omega)
    rwa [show ((2 * j : ℕ) : ℤ) * is = (j : ℤ) * (2 * is) by push_cast; ring] at this)
  refine ⟨h1, fun q hq hk hj => h2 q hq (fun k h => hk k (by omega)) (fun hn j h => ?_), fun k hk => ?_⟩
  · have := hj hn (2 * j) (by omega)
    rwa [show ((2 * j : ℕ) : ℤ) * is = (j : ℤ) * (2 * is) by push_cast; ring] at this
  · rw [h3 k hk]
    refine sum_congr rfl fun j _ => ?_
    rw [show ((2 * j + 0 : ℕ) : ℤ) * is = (j : ℤ) * (2 * is) by push_cast; ring]

theorem mid_O (hm : 2 ≤ m) (h : R1 .RODFT00 (m - 1) (2 * is) os false nd clde.rdftApply) :
    Mid .RODFT00 (2 * m - 1) (m - 1) 1 is os false nd (splitMidO m is os clde) := by
  intro ho hi I O st bI bO _ hout
  have hne : I ≠ O := by
    have := hout rfl 0 (by omega) 0 (by omega)
    simpa [ptr_add_zero] using this
  have ee : ∀ j : ℕ, I + is + (j : ℤ) * (2 * is) = I + ((2 * j + 1 : ℕ) : ℤ) * is := by
    intro j; rw [Ptr.add_add]; congr 1; push_cast; ring
  have e : splitMidO m is os clde I O st = clde.rdftApply (I + is) O st := by rw [splitMidO, if_neg hne]
  rw [e]
  obtain ⟨h1, h2, h3⟩ := h (RInj.mono ho (by omega)) (fun hn => RInj.double (hi hn) (by omega)) (I + is) O st bI bO (by simp) (fun _ j hj k hk => by
    rw [ee]; exact hout rfl (2 * j + 1) (by omega) k (by omega))
  refine ⟨h1, fun q hq hk hj => h2 q hq (fun k h => hk k (by omega)) (fun hn j h => ?_), fun k hk => ?_⟩
  · rw [ee]; exact hj hn (2 * j + 1) (by omega)
  · rw [h3 k hk]
    exact sum_congr rfl fun j _ => by rw [ee]

/-- in place, the even child has size 1 -/
theorem mid_Oin (h : R1 .RODFT00 1 (2 * is) is true nd clde.rdftApply) :
    Mid .RODFT00 3 1 1 is os true nd (splitMidO 2 is os clde) := by
  intro ho hi I O st bI bO hin _
  obtain ⟨rfl, hs⟩ := hin rfl
  have hs1 : is = os := by simpa using hs 1 (by omega)
  subst hs1
  have one : ∀ s : ℤ, RInj s 1 := fun s k k' hk hk' _ => by omega
  obtain ⟨h1, h2, h3⟩ := h (one _) (fun _ => one _) (I + is) (I + is) st bI bI (fun _ => ⟨rfl, fun j hj => by
    obtain rfl : j = 0 := by omega
    simp⟩) (by simp)
  have e : splitMidO 2 is is clde I I st = (clde.rdftApply (I + is) (I + is) st).set (I + ((0 : ℕ) : ℤ) * is) ((clde.rdftApply (I + is) (I + is) st).mem (I + ((0 + 1 : ℕ) : ℤ) * is)) := by
    rw [splitMidO, if_pos rfl]; rfl
  rw [e]
  have e1 : I + is + ((0 : ℕ) : ℤ) * is = I + ((1 : ℕ) : ℤ) * is := by rw [Ptr.add_add]; congr 1; push_cast; ring
  have e2 : I + is + ((0 : ℕ) : ℤ) * (2 * is) = I + ((1 : ℕ) : ℤ) * is := by rw [Ptr.add_add]; congr 1; push_cast; ring
  refine ⟨h1, fun q hq hk _ => ?_, fun k hk => ?_⟩
  · rw [State.set_mem_ne _ (hk 0 (by omega))]
    refine h2 q hq (fun k h => ?_) (fun _ k h => ?_)
    · obtain rfl : k = 0 := by omega
      rw [e1]; exact hk 1 (by omega)
    · obtain rfl : k = 0 := by omega
      rw [e2]; exact hk 1 (by omega)
  · obtain rfl : k = 0 := by omega
    have h30 := h3 0 (by omega)
    rw [e1] at h30
    rw [State.set_mem_same, show 0 + 1 = 1 from rfl, h30, sum_range_one, sum_range_one, e2]

end

theorem tornk1_eq {v : List Dim} {vd : Dim} (ht : tornk1 v = some vd) (h : v = [] ∨ vd.is = vd.os) : ∀ e ∈ v, e.is = e.os := by
  match v with
  | [] => simp
  | [e] =>
    obtain rfl : e = vd := by simpa [DftS.tornk1] using ht
    simpa using h
  | _ :: _ :: _ => simp [DftS.tornk1] at ht

/-- a single in-place transform is never transposed -/
theorem noTr_rank1 [CLib] (e : Dim × RKind) {I O : Ptr} (h0 : PosK [e]) : NoTr [e] (some []) I O := by
  intro _ hio _ _
  refine ⟨?_, by intro l hl; simp only [Option.some.injEq] at hl; subst hl; simp⟩
  intro x hx hn
  obtain rfl := List.mem_singleton.1 hx
  have := h0 x (by simp)
  have := offs1_inj (n := x.1.n) (s := x.1.is) (t := x.1.os) hio 1 (by omega)
  simpa using this

/-- the first vector of an out-of-place problem -/
theorem apart_rank1 {d : Dim} {v : List Dim} {I O : Ptr} (hv : ∀ e ∈ v, 0 < e.n) (h : Apart (append (some [d]) (some v)) I O) :
    ∀ j < d.n, ∀ k < d.n, I + (j : ℤ) * d.is ≠ O + (k : ℤ) * d.os := by
  intro j hj k hk
  have z : ∀ s : List (ℕ × ℤ), (∀ e ∈ s, 0 < e.1) → (0 : ℤ) ∈ offs s := by
    intro s
    induction s with
    | nil => intro _; exact mem_offs_nil.2 rfl
    | cons a s ih =>
      intro hs
      obtain ⟨n, t⟩ := a
      exact mem_offs_cons.2 ⟨0, hs (n, t) (by simp), 0, ih fun e he => hs e (by simp [he]), by simp⟩
  refine h _ (mem_offs_cons.2 ⟨j, hj, 0, z _ ?_, ?_⟩) _ (mem_offs_cons.2 ⟨k, hk, 0, z _ ?_, ?_⟩)
  · intro e he
    obtain ⟨e', he', rfl⟩ := List.mem_map.1 he
    exact hv e' he'
  · simp
  · intro e he
    obtain ⟨e', he', rfl⟩ := List.mem_map.1 he
    exact hv e' he'
  · simp

/-- one transform is apart from its output if its elements are -/
theorem apart_of_rank1 {d : Dim} {I O : Ptr} (h : ∀ j < d.n, ∀ k < d.n, I + (j : ℤ) * d.is ≠ O + (k : ℤ) * d.os) : Apart (append (some [d]) (some [])) I O := by
  intro a ha b hb
  obtain ⟨j, hj, rfl⟩ := mem_offs1.1 (show a ∈ offs [(d.n, d.is)] from ha)
  obtain ⟨k, hk, rfl⟩ := mem_offs1.1 (show b ∈ offs [(d.n, d.os)] from hb)
  exact h j hj k hk

variable [CLib]

theorem reodft00Split_sound {cexp : ℕ → ℤ → ℝ × ℝ} (hc : ExactCexp cexp) (taste : Taste) : (reodft00Split cexp taste).Sound := by
  refine rdftSolver_sound ?_
  intro p fl hk
  obtain ⟨hpk, ha, hpv, hin⟩ := kosher_rdft hk
  show Mk.Good fl _ (match p.sz, p.vecsz with | [(d, kd)], some v => _ | _, _ => _)
  split
  rotate_left
  · exact good_nada
  rename_i d kd v hsz hv
  cases ht : tornk1 v with
  | none => exact good_nada
  | some vd =>
  dsimp only
  split
  swap
  · exact good_nada
  rename_i h
  obtain ⟨⟨hkd, hn1, hodd, hstr, hlazy⟩, -⟩ := h
  have hposv : ∀ e ∈ v, 0 < e.n := hpv v hv
  have hst2 : p.I = p.O → ∀ e ∈ v, e.is = e.os := fun hio => tornk1_eq ht (hstr.resolve_left (fun h => h hio))
  have hap : p.I ≠ p.O → ∀ j < d.n, ∀ k < d.n, p.I + (j : ℤ) * d.is ≠ p.O + (k : ℤ) * d.os := by
    intro hne
    have := ha hne
    rw [hsz, hv] at this
    exact apart_rank1 hposv this
  obtain ⟨n, is, os⟩ := d
  simp only at hn1 hodd hap
  rcases hkd with rfl | rfl
  · -- REDFT00
    obtain ⟨m, rfl⟩ : ∃ m, n = 2 * m + 1 := ⟨n / 2, by omega⟩
    have hm : 0 < m := by omega
    simp only [if_true, reduceCtorEq, false_and, if_false, decide_false, Bool.false_eq_true, Nat.add_sub_cancel, show 2 * m / 2 = m by omega, show 2 * m + 1 - m = m + 1 by omega]
    have hpE : PosK [((⟨m + 1, 2 * is, os⟩ : Dim), RKind.REDFT00)] := by simp [PosK]
    have hpO : PosK [((⟨m, 1, 1⟩ : Dim), RKind.R2HC00)] := by simpa [PosK] using hm
    apply good_need
    · refine kosher_mkproblemRdft hpE (fun hne => apart_of_rank1 fun j hj k hk => ?_) (noTr_rank1 _ hpE)
      have := hap hne (2 * j) (by simp only at hj; omega) k (by simp only at hk; omega)
      rwa [show ((2 * j : ℕ) : ℤ) * is = (j : ℤ) * (2 * is) by push_cast; ring] at this
    intro clde hclde
    rw [modify_default] at hclde
    obtain ⟨hE, hE2⟩ := sound_mkproblemRdft hpE hclde
    apply good_need
    · exact kosher_mkproblemRdft hpO (fun h => absurd rfl h)
    intro cldo hcldo
    obtain ⟨hO, -⟩ := sound_mkproblemRdft hpO hcldo
    rw [decide_eq_true rfl] at hO
    apply good_ret
    refine soundRdft (by simp [hv]) ?_
    rw [hsz, hv]
    refine vloop_ok ht hposv (fun hi => hst2 (by simpa using hi)) ?_
    by_cases hio : p.I = p.O
    · rw [decide_eq_true hio]
      intro ho _ I O st _ _ hin _
      exfalso
      have e1 : ((1 : ℕ) : ℤ) * is = ((1 : ℕ) : ℤ) * os := (hin rfl).2 1 (by show 1 < 2 * m + 1; omega)
      have e2 := hE2 hio
      obtain ⟨eo, ei⟩ := locT_real1 ⟨m + 1, 2 * is, os⟩ .REDFT00
      rw [eo, ei] at e2
      have e3 : ((1 : ℕ) : ℤ) * (2 * is) = ((1 : ℕ) : ℤ) * os := offs1_inj e2 1 (by show 1 < m + 1; omega)
      simp only [Nat.cast_one, one_mul] at e1 e3
      have : is = 0 := by omega
      have h01 : (0 : ℕ) = 1 := ho 0 1 (by show 0 < 2 * m + 1; omega) (by show 1 < 2 * m + 1; omega) (show ((0 : ℕ) : ℤ) * os = ((1 : ℕ) : ℤ) * os by push_cast; omega)
      omega
    · rw [decide_eq_false hio] at hE ⊢
      have := R1_split (K := .REDFT00) (A := fun x j => x (2 * perm10 m j + 1)) (Z := zE m) (splitPreE_fill (is := is) hm) hO.rank1R (mid_E hE.rank1R) (by intro j hj; omega)
        (fun ho B O st => splitPostE_ok hm (fun i h0 hi => Wsplit_spec hc h0 hi) ho B O st) (fun x e y he hy k hk => splitE_math hm x e y he hy hk)
      refine cast ?_ this
      unfold splitE
      rw [show 2 * m / 2 = m by omega]
  · -- RODFT00
    obtain ⟨m, rfl⟩ : ∃ m, n = 2 * m - 1 := ⟨(n + 1) / 2, by omega⟩
    have hm : 2 ≤ m := by omega
    simp only [if_true, reduceCtorEq, true_and, if_false, show (2 * m - 1 + 1) = 2 * m by omega, show 2 * m / 2 = m by omega, show 2 * m - 1 - m = m - 1 by omega]
    have hpO : PosK [((⟨m, 1, 1⟩ : Dim), RKind.R2HC00)] := by simp [PosK]; omega
    by_cases hio : p.I = p.O
    · simp only [hio, decide_true, if_true]
      have hpE : PosK [((⟨m - 1, 2 * is, is⟩ : Dim), RKind.RODFT00)] := by simp [PosK]; omega
      apply good_need
      · exact kosher_mkproblemRdft hpE (fun h => absurd rfl h) (noTr_rank1 _ hpE)
      intro clde hclde
      rw [modify_default] at hclde
      obtain ⟨hE, hE2⟩ := sound_mkproblemRdft hpE hclde
      rw [decide_eq_true rfl] at hE
      apply good_need
      · exact kosher_mkproblemRdft hpO (fun h => absurd rfl h)
      intro cldo hcldo
      obtain ⟨hO, -⟩ := sound_mkproblemRdft hpO hcldo
      rw [decide_eq_true rfl] at hO
      apply good_ret
      refine soundRdft (by simp [hv]) ?_
      rw [hsz, hv]
      refine vloop_ok ht hposv (fun hi => hst2 (by simpa using hi)) ?_
      rw [decide_eq_true hio]
      by_cases hm2 : m = 2
      · subst hm2
        have := R1_split (K := .RODFT00) (A := bO 2) (Z := zO 2) (splitPreO_fill (is := is) (by omega)) hO.rank1R (mid_Oin (os := os) hE.rank1R) (by intro j hj; omega)
          (fun ho B O st => splitPostO_ok (m := 2) (by omega) (fun i h0 hi => Wsplit_spec hc h0 hi) ho B O st) (fun x e y he hy k hk => splitO_math (m := 2) (by omega) x e y he hy hk)
        exact this
      · intro ho _ I O st _ _ hin _
        exfalso
        have e1 : ((1 : ℕ) : ℤ) * is = ((1 : ℕ) : ℤ) * os := (hin rfl).2 1 (by show 1 < 2 * m - 1; omega)
        have e2 := hE2 rfl
        obtain ⟨eo, ei⟩ := locT_real1 ⟨m - 1, 2 * is, is⟩ .RODFT00
        rw [eo, ei] at e2
        have e3 : ((1 : ℕ) : ℤ) * (2 * is) = ((1 : ℕ) : ℤ) * is := offs1_inj e2 1 (by show 1 < m - 1; omega)
        simp only [Nat.cast_one, one_mul] at e1 e3
        have : is = 0 := by omega
        have h01 : (0 : ℕ) = 1 := ho 0 1 (by show 0 < 2 * m - 1; omega) (by show 1 < 2 * m - 1; omega) (show ((0 : ℕ) : ℤ) * os = ((1 : ℕ) : ℤ) * os by push_cast; omega)
        omega
    · simp only [hio, decide_false, if_false, Bool.false_eq_true]
      have hpE : PosK [((⟨m - 1, 2 * is, os⟩ : Dim), RKind.RODFT00)] := by simp [PosK]; omega
      have ee : ∀ j : ℕ, p.I + is + (j : ℤ) * (2 * is) = p.I + ((2 * j + 1 : ℕ) : ℤ) * is := by
        intro j; rw [Ptr.add_add]; congr 1; push_cast; ring
      have hne : p.I + is ≠ p.O := by
        have := hap hio 1 (by omega) 0 (by omega)
        simpa [ptr_add_zero] using this
      apply good_need
      · refine kosher_mkproblemRdft hpE (fun _ => apart_of_rank1 fun j hj k hk => ?_) (noTr_rank1 _ hpE)
        simp only at hj hk ⊢
        rw [ee]
        exact hap hio _ (by omega) _ (by omega)
      intro clde hclde
      rw [modify_default] at hclde
      obtain ⟨hE, -⟩ := sound_mkproblemRdft hpE hclde
      rw [decide_eq_false hne] at hE
      apply good_need
      · exact kosher_mkproblemRdft hpO (fun h => absurd rfl h)
      intro cldo hcldo
      obtain ⟨hO, -⟩ := sound_mkproblemRdft hpO hcldo
      rw [decide_eq_true rfl] at hO
      apply good_ret
      refine soundRdft (by simp [hv]) ?_
      rw [hsz, hv]
      refine vloop_ok ht hposv (fun hi => hst2 (by simpa using hi)) ?_
      rw [decide_eq_false hio]
      have := R1_split (K := .RODFT00) (A := bO m) (Z := zO m) (splitPreO_fill (is := is) (by omega)) hO.rank1R (mid_O hm hE.rank1R) (by intro j hj; omega)
        (fun ho B O st => splitPostO_ok (by omega) (fun i h0 hi => Wsplit_spec hc h0 hi) ho B O st) (fun x e y he hy k hk => splitO_math (by omega) x e y he hy hk)
      refine cast ?_ this
      unfold splitO
      rw [show 2 * m / 2 = m by omega]

end FFTW.Reodft
