import Verif.Proofs.Codelets

namespace FFTW.Spec
open FFTW.Tensor FFTW.DftS

/-- a loop whose rounds work on separate places -/
theorem forN_local {N : ℕ} {f : ℕ → State → State} {W : ℕ → Ptr → Prop} {Q : ℕ → (Ptr → ℝ) → (Ptr → ℝ) → Prop} {st : State}
    (hf : ∀ j < N, ∀ st' : State, st.next ≤ st'.next → Frame st' (f j st') (W j) ∧ Q j st'.mem (f j st').mem)
    (hQ : ∀ j < N, ∀ m1 m2 m1' m2' : Ptr → ℝ, (∀ q, W j q → m1 q = m1' q) → (∀ q, W j q → m2 q = m2' q) → Q j m1 m2 → Q j m1' m2')
    (hW : ∀ i < N, ∀ j < N, i ≠ j → ∀ q, W i q → ¬ W j q) (hb : ∀ j < N, ∀ q, W j q → q.blk < st.next) :
    Frame st (forN N f st) (fun q => ∃ j < N, W j q) ∧ ∀ j < N, Q j st.mem (forN N f st).mem := by
  have key : ∀ n ≤ N, Frame st (forN n f st) (fun q => ∃ j < n, W j q) ∧ ∀ j < n, Q j st.mem (forN n f st).mem := by
    intro n
    induction n with
    | zero => intro _; exact ⟨Frame.refl _ _, fun j hj => absurd hj (by omega)⟩
    | succ n ih =>
      intro hn
      obtain ⟨h1, h2⟩ := ih (by omega)
      obtain ⟨h3, h4⟩ := hf n (by omega) (forN n f st) h1.next
      rw [forN_succ]
      refine ⟨h1.trans h3 (fun q _ ⟨j, hj, h⟩ => ⟨j, by omega, h⟩) (fun q _ h => ⟨n, by omega, h⟩), ?_⟩
      intro j hj
      by_cases hjn : j = n
      · subst hjn
        refine hQ j (by omega) _ _ _ _ (fun q hq => ?_) (fun q _ => rfl) h4
        exact h1.mem q (hb j (by omega) q hq) fun ⟨i, hi, h⟩ => hW i (by omega) j (by omega) (by omega) q h hq
      · refine hQ j (by omega) _ _ _ _ (fun q _ => rfl) (fun q hq => ?_) (h2 j (by omega))
        exact (h3.mem q (lt_of_lt_of_le (hb j (by omega) q hq) h1.next) fun h => hW j (by omega) n (by omega) hjn q hq h).symm
  exact key N le_rfl

/-- locations of a twiddle step -/
def TwLoc (t : TwP) (δ : ℤ) (P q : Ptr) : Prop := ∃ b ∈ outs (t.locT δ), q = P + ((t.mb : ℤ) * t.ms + b)

theorem mem_outs_tw {t : TwP} {δ b : ℤ} : b ∈ outs (t.locT δ) ↔ ∃ c j l i : ℕ, c < 2 ∧ j < t.r ∧ l < t.mc ∧ i < t.v ∧
    b = (c : ℤ) * δ + ((j : ℤ) * t.ors + (l : ℤ) * t.ms + (i : ℤ) * t.ovs) := by
  rw [TwP.locT, outs_four]; exact mem_offs4

theorem twLoc_iff {t : TwP} {δ : ℤ} {P q : Ptr} : TwLoc t δ P q ↔ ∃ c j l i : ℕ, c < 2 ∧ j < t.r ∧ t.mb ≤ l ∧ l < t.mb + t.mc ∧ i < t.v ∧
    q = P + ((c : ℤ) * δ + ((j : ℤ) * t.ors + (l : ℤ) * t.ms + (i : ℤ) * t.ovs)) := by
  unfold TwLoc
  simp only [mem_outs_tw]
  constructor
  · rintro ⟨b, ⟨c, j, l, i, hc, hj, hl, hi, rfl⟩, rfl⟩
    exact ⟨c, j, t.mb + l, i, hc, hj, by omega, by omega, hi, by congr 1; push_cast; ring⟩
  · rintro ⟨c, j, l, i, hc, hj, hl, hl2, hi, rfl⟩
    obtain ⟨a, rfl⟩ := Nat.exists_eq_add_of_le hl
    exact ⟨_, ⟨c, j, a, i, hc, hj, by omega, hi, rfl⟩, by congr 1; push_cast; ring⟩

/-- what a twiddle step stores, for equal input and output strides -/
def TwVal (dit : Bool) (t : TwP) (δ : ℤ) (P : Ptr) (m m' : Ptr → ℝ) : Prop :=
  ∀ k l i : ℕ, k < t.r → t.mb ≤ l → l < t.mb + t.mc → i < t.v →
    (val m' P δ (k * t.ors + l * t.ms + i * t.ovs) : ℂ) = twStep dit t.r t.m l k fun j => val m P δ (j * t.ors + l * t.ms + i * t.ovs)

theorem twStep_congr {dit : Bool} {r m l k : ℕ} {x y : ℕ → ℂ} (h : ∀ j < r, x j = y j) : twStep dit r m l k x = twStep dit r m l k y := by
  unfold twStep
  split
  · exact Finset.sum_congr rfl fun j hj => by rw [h j (Finset.mem_range.1 hj)]
  · congr 1; exact Finset.sum_congr rfl fun j hj => by rw [h j (Finset.mem_range.1 hj)]

theorem TwVal.local {dit : Bool} {t : TwP} {δ : ℤ} {P : Ptr} {m1 m2 m1' m2' : Ptr → ℝ} (h1 : ∀ q, TwLoc t δ P q → m1 q = m1' q)
    (h2 : ∀ q, TwLoc t δ P q → m2 q = m2' q) (h : TwVal dit t δ P m1 m2) : TwVal dit t δ P m1' m2' := by
  intro k l i hk hl hl2 hi
  have e2 : (val m2' P δ (k * t.ors + l * t.ms + i * t.ovs) : ℂ) = val m2 P δ (k * t.ors + l * t.ms + i * t.ovs) :=
    Elt.dec_congr _ _ fun c hc => (h2 _ (twLoc_iff.2 ⟨c, k, l, i, hc, hk, hl, hl2, hi, rfl⟩)).symm
  rw [e2, h k l i hk hl hl2 hi]
  apply twStep_congr
  intro j hj
  exact Elt.dec_congr _ _ fun c hc => h1 _ (twLoc_iff.2 ⟨c, j, l, i, hc, hj, hl, hl2, hi, rfl⟩)

/-- the contract for equal strides -/
theorem twOK_iff {dit : Bool} {t : TwP} {δ : ℤ} {f : Ptr → State → State} (hrs : t.irs = t.ors) (hvs : t.ivs = t.ovs) :
    TwOK dit t δ f ↔ ((outs (t.locT δ)).Nodup → ∀ P st, P.blk < st.next → Frame st (f P st) (TwLoc t δ P) ∧ TwVal dit t δ P st.mem (f P st).mem) := by
  have hi : ins (t.locT δ) = outs (t.locT δ) := by
    rw [TwP.locT, outs_four, ins_four]; simp only [hrs, hvs]
  unfold TwOK TwVal
  rw [hi, hrs, hvs]
  constructor
  · intro h hn P st hP; exact h hn rfl P st hP
  · intro h hn _ P st hP; exact h hn P st hP

/-- a part of the locations -/
theorem nodup_sub {t t' : TwP} {δ : ℤ} (hn : (outs (t.locT δ)).Nodup) (hr : t'.r = t.r) (ho : t'.ors = t.ors) (hm : t'.ms = t.ms)
    (g : ℕ → ℕ) (hg : ∀ i < t'.v, g i < t.v) (hgi : ∀ i < t'.v, ∀ i' < t'.v, g i = g i' → i = i') (hv : ∃ x : ℤ, ∀ i < t'.v, (i : ℤ) * t'.ovs + x = (g i : ℤ) * t.ovs)
    (a : ℕ) (ha : a + t'.mc ≤ t.mc) : (outs (t'.locT δ)).Nodup := by
  rw [TwP.locT, outs_four, Api.offs_boxes]
  refine (Api.nodup_boxes _).map_on ?_
  intro x hx y hy he
  rw [TwP.locT, outs_four] at hn
  simp only [List.map_cons, List.map_nil, Api.mem_boxes] at hx hy he
  obtain ⟨c, x1, hc, hx1, rfl⟩ := Api.box_cons.1 hx
  obtain ⟨k, x2, hk, hx2, rfl⟩ := Api.box_cons.1 hx1
  obtain ⟨l, x3, hl, hx3, rfl⟩ := Api.box_cons.1 hx2
  obtain ⟨i, x4, hi, hx4, rfl⟩ := Api.box_cons.1 hx3
  obtain ⟨c', y1, hc', hy1, rfl⟩ := Api.box_cons.1 hy
  obtain ⟨k', y2, hk', hy2, rfl⟩ := Api.box_cons.1 hy1
  obtain ⟨l', y3, hl', hy3, rfl⟩ := Api.box_cons.1 hy2
  obtain ⟨i', y4, hi', hy4, rfl⟩ := Api.box_cons.1 hy3
  obtain rfl : x4 = [] := List.length_eq_zero_iff.1 (by rw [Api.box_length hx4]; rfl)
  obtain rfl : y4 = [] := List.length_eq_zero_iff.1 (by rw [Api.box_length hy4]; rfl)
  simp only [Api.dot_cons, Api.dot_nil] at he
  obtain ⟨x0, hx0⟩ := hv
  have e1 := hx0 i hi
  have e2 := hx0 i' hi'
  obtain ⟨r1, r2, r3, r4⟩ := offs4_inj hn (i := c) (j := k) (k := a + l) (l := g i) (i' := c') (j' := k') (k' := a + l') (l' := g i')
    hc (by rw [← hr]; exact hk) (by simp only; omega) (hg i hi) hc' (by rw [← hr]; exact hk') (by simp only; omega) (hg i' hi') (by
      simp only
      rw [← e1, ← e2, ← ho, ← hm]
      push_cast
      linarith)
  have r5 := hgi i hi i' hi' r4
  have r6 : l = l' := by omega
  rw [r1, r2, r5, r6]

/-- a loop over the vector -/
theorem TwOK_vloop {dit : Bool} {r : ℕ} {rs : ℤ} {m : ℕ} {ms : ℤ} {v : ℕ} {vs : ℤ} {mb mc : ℕ} {δ : ℤ} {f : Ptr → State → State}
    (h : TwOK dit ⟨r, rs, rs, m, ms, 1, 0, 0, mb, mc⟩ δ f) :
    TwOK dit ⟨r, rs, rs, m, ms, v, vs, vs, mb, mc⟩ δ (fun P => forN v fun i st => f (P + (i : ℤ) * vs) st) := by
  rw [twOK_iff rfl rfl] at h ⊢
  intro hn P st hP
  have key := forN_local (N := v) (f := fun i st => f (P + (i : ℤ) * vs) st) (st := st)
    (W := fun i => TwLoc ⟨r, rs, rs, m, ms, 1, 0, 0, mb, mc⟩ δ (P + (i : ℤ) * vs))
    (Q := fun i m1 m2 => TwVal dit ⟨r, rs, rs, m, ms, 1, 0, 0, mb, mc⟩ δ (P + (i : ℤ) * vs) m1 m2) ?_ ?_ ?_ ?_
  · obtain ⟨h1, h2⟩ := key
    refine ⟨h1.mono fun q _ ⟨i, hi, hq⟩ => ?_, ?_⟩
    · obtain ⟨c, j, l, i', hc, hj, hl, hl2, hi', rfl⟩ := twLoc_iff.1 hq
      refine twLoc_iff.2 ⟨c, j, l, i, hc, hj, hl, hl2, hi, ?_⟩
      simp only [Ptr.add_add, mul_zero, add_zero]
      congr 1; ring
    · intro k l i hk hl hl2 hi
      have := h2 i hi k l 0 hk hl hl2 (by simp)
      simp only [mul_zero, add_zero] at this
      have e : ∀ (μ : Ptr → ℝ) (o : ℤ), (val μ (P + (i : ℤ) * vs) δ o : ℂ) = val μ P δ (o + i * vs) := by
        intro μ o
        apply Elt.dec_congr
        intro c _
        rw [Ptr.add_add]; congr 2; ring
      simp only [e] at this
      exact this
  · intro j hj st' hst
    exact h (nodup_sub hn rfl rfl rfl (fun _ => j) (fun _ _ => hj) (fun i hi i' hi' _ => by simp only at hi hi'; omega)
      ⟨(j : ℤ) * vs, fun i hi => by simp⟩ 0 (by simp)) _ _ (by simp only [Ptr.add_blk]; omega)
  · intro j hj m1 m2 m1' m2' h1 h2 hq
    exact hq.local h1 h2
  · intro i hi j hj hij q hq hq'
    obtain ⟨c, k, l, i0, hc, hk, hl, hl2, hi0, rfl⟩ := twLoc_iff.1 hq
    obtain ⟨c', k', l', i0', hc', hk', hl', hl2', hi0', e⟩ := twLoc_iff.1 hq'
    simp only [Ptr.add_add, Ptr.add_inj, mul_zero, add_zero] at e
    exact hij (tw_inj hn hc hk hl hl2 hi hc' hk' hl' hl2' hj (by simp only; linarith)).2.2.2
  · intro j hj q hq
    obtain ⟨b, _, rfl⟩ := hq
    simpa using hP

/-- a loop over blocks of columns -/
theorem TwOK_cols {dit : Bool} {r : ℕ} {rs : ℤ} {m : ℕ} {ms : ℤ} {mb mc N : ℕ} {δ : ℤ} {a s : ℕ → ℕ} {f : ℕ → Ptr → State → State}
    (ha0 : a 0 = mb) (ha : ∀ j < N, a (j + 1) = a j + s j) (haN : a N = mb + mc)
    (h : ∀ j < N, TwOK dit ⟨r, rs, rs, m, ms, 1, 0, 0, a j, s j⟩ δ (f j)) :
    TwOK dit ⟨r, rs, rs, m, ms, 1, 0, 0, mb, mc⟩ δ (fun P => forN N fun j st => f j P st) := by
  have mono : ∀ j ≤ N, ∀ i ≤ j, a i ≤ a j := by
    intro j
    induction j with
    | zero => intro _ i hi; obtain rfl : i = 0 := by omega
              exact le_rfl
    | succ j ih =>
      intro hj i hi
      by_cases e : i = j + 1
      · rw [e]
      · rw [ha j (by omega)]; have := ih (by omega) i (by omega); omega
  have find : ∀ n ≤ N, ∀ l, mb ≤ l → l < a n → ∃ j < n, a j ≤ l ∧ l < a j + s j := by
    intro n
    induction n with
    | zero => intro _ l h1 h2; omega
    | succ n ih =>
      intro hn l h1 h2
      by_cases hl : l < a n
      · obtain ⟨j, hj, h⟩ := ih (by omega) l h1 hl; exact ⟨j, by omega, h⟩
      · exact ⟨n, by omega, by omega, by rw [← ha n (by omega)]; exact h2⟩
  have hlo : ∀ j < N, mb ≤ a j ∧ a j + s j ≤ mb + mc := fun j hj =>
    ⟨by rw [← ha0]; exact mono j (by omega) 0 (by omega), by rw [← haN, ← ha j hj]; exact mono N le_rfl _ (by omega)⟩
  intro hn0 hi0
  have h' : ∀ j < N, _ := fun j hj => (twOK_iff rfl rfl).1 (h j hj)
  revert hn0 hi0
  rw [show ((outs (TwP.locT ⟨r, rs, rs, m, ms, 1, 0, 0, mb, mc⟩ δ)).Nodup → _) = TwOK dit ⟨r, rs, rs, m, ms, 1, 0, 0, mb, mc⟩ δ (fun P => forN N fun j st => f j P st) from rfl]
  rw [twOK_iff rfl rfl]
  intro hn P st hP
  have key := forN_local (N := N) (f := fun j st => f j P st) (st := st)
    (W := fun j => TwLoc ⟨r, rs, rs, m, ms, 1, 0, 0, a j, s j⟩ δ P)
    (Q := fun j m1 m2 => TwVal dit ⟨r, rs, rs, m, ms, 1, 0, 0, a j, s j⟩ δ P m1 m2) ?_ ?_ ?_ ?_
  · obtain ⟨h1, h2⟩ := key
    refine ⟨h1.mono fun q _ ⟨j, hj, hq⟩ => ?_, ?_⟩
    · obtain ⟨c, k, l, i', hc, hk, hl, hl2, hi', rfl⟩ := twLoc_iff.1 hq
      have := hlo j hj
      simp only at hl hl2
      exact twLoc_iff.2 ⟨c, k, l, i', hc, hk, by simp only; omega, by simp only; omega, hi', rfl⟩
    · intro k l i hk hl hl2 hi
      obtain ⟨j, hj, e1, e2⟩ := find N le_rfl l hl (by rw [haN]; exact hl2)
      exact h2 j hj k l i hk e1 e2 hi
  · intro j hj st' hst
    have := hlo j hj
    refine h' j hj (nodup_sub hn rfl rfl rfl id (fun _ hi => hi) (fun i hi i' hi' e => e) ⟨0, fun i hi => by simp⟩ (a j - mb) (by simp only; omega)) P st' (by omega)
  · intro j hj m1 m2 m1' m2' h1 h2 hq
    exact hq.local h1 h2
  · intro i hi j hj hij q hq hq'
    obtain ⟨c, k, l, i0, hc, hk, hl, hl2, hi0, rfl⟩ := twLoc_iff.1 hq
    obtain ⟨c', k', l', i0', hc', hk', hl', hl2', hi0', e⟩ := twLoc_iff.1 hq'
    have b1 := hlo i hi
    have b2 := hlo j hj
    simp only [Ptr.add_inj] at e
    simp only at hl hl2 hl' hl2'
    have e2 := (tw_inj hn (l := l) (l' := l') hc hk (by simp only; omega) (by simp only; omega) hi0 hc' hk' (by simp only; omega) (by simp only; omega) hi0' (by simp only; linarith)).2.2.1
    subst e2
    rcases Nat.lt_or_ge i j with hlt | hge
    · have := mono j (by omega) (i + 1) (by omega)
      rw [ha i hi] at this; omega
    · have := mono i (by omega) (j + 1) (by omega)
      rw [ha j hj] at this; omega
  · intro j hj q hq
    obtain ⟨b, _, rfl⟩ := hq
    simpa using hP

/-- two blocks of columns -/
theorem TwOK_two {dit : Bool} {r : ℕ} {rs : ℤ} {m : ℕ} {ms : ℤ} {mc a : ℕ} {δ : ℤ} {f g : Ptr → State → State}
    (hf : TwOK dit ⟨r, rs, rs, m, ms, 1, 0, 0, 0, a⟩ δ f) (hg : TwOK dit ⟨r, rs, rs, m, ms, 1, 0, 0, a, 1⟩ δ g) (ha : a + 1 = mc) :
    TwOK dit ⟨r, rs, rs, m, ms, 1, 0, 0, 0, mc⟩ δ (fun P st => g P (f P st)) :=
  TwOK_cols (N := 2) (mb := 0) (mc := mc) (a := fun j => if j = 0 then 0 else if j = 1 then a else mc) (s := fun j => if j = 0 then a else 1)
    (f := fun j => if j = 0 then f else g) (by simp) (by
      intro j hj
      rcases (by omega : j = 0 ∨ j = 1) with rfl | rfl
      · simp
      · simp; omega) (by simp) (fun j hj => by
      rcases (by omega : j = 0 ∨ j = 1) with rfl | rfl
      · exact hf
      · exact hg)

/-- a block of columns through a buffer -/
theorem TwOK_buf {dit : Bool} {r : ℕ} {rs : ℤ} {m : ℕ} {ms : ℤ} {j s b : ℕ} {δ : ℤ} {g : Ptr → State → State} (hs : s ≤ b)
    (h : TwOK dit ⟨r, 2 * (b : ℤ), 2 * (b : ℤ), m, 2, 1, 0, 0, j, s⟩ 1 g) :
    TwOK dit ⟨r, rs, rs, m, ms, 1, 0, 0, j, s⟩ δ (fun P => withBuf fun B st =>
      Copy.cpy2dPairCo B (B + (1 : ℤ)) (P + (j : ℤ) * ms) (P + (j : ℤ) * ms + δ) r (2 * (b : ℤ)) rs s 2 ms
        (g (B + (-((j : ℤ) * 2)))
          (Copy.cpy2dPairCi (P + (j : ℤ) * ms) (P + (j : ℤ) * ms + δ) B (B + (1 : ℤ)) r rs (2 * (b : ℤ)) s ms 2 st))) := by
  rw [twOK_iff rfl rfl] at h ⊢
  intro hn P st hP
  have hB := buf_nodup (n := r) hs 1 1
  have hci := GOK_pairCi r s rs (2 * (b : ℤ)) ms 2 δ 1 true
  have hco := GOK_pairCo r s (2 * (b : ℤ)) rs 2 ms 1 δ true
  have oB : outs (locT ℂ δ 1 ([] : List (Dim × Unit)) (some [⟨s, ms, 2⟩, ⟨r, rs, 2 * (b : ℤ)⟩])) = offs [(2, (1 : ℤ)), (r, 2 * (b : ℤ)), (s, (2 : ℤ))] := by
    rw [offs_perm (((List.Perm.swap _ _ _)).cons _)]; rfl
  have oT : outs (locT ℂ 1 δ ([] : List (Dim × Unit)) (some [⟨s, 2, ms⟩, ⟨r, 2 * (b : ℤ), rs⟩])) = outs (TwP.locT ⟨r, rs, rs, m, ms, 1, 0, 0, j, s⟩ δ) := by
    show offs [(2, δ), (s, ms), (r, rs)] = offs [(2, δ), (r, rs), (s, ms), (1, 0)]
    rw [offs_perm (l := [(2, δ), (r, rs), (s, ms), (1, (0 : ℤ))]) (l' := (1, (0 : ℤ)) :: [(2, δ), (s, ms), (r, rs)])]
    · rw [offs_one]
    · refine List.Perm.trans ?_ (List.perm_middle (a := (1, (0 : ℤ))) (l₁ := [(2, δ), (s, ms), (r, rs)]) (l₂ := []))
      exact (List.Perm.swap _ _ _).cons _
  have oG : outs (TwP.locT ⟨r, 2 * (b : ℤ), 2 * (b : ℤ), m, 2, 1, 0, 0, j, s⟩ 1) = offs [(2, (1 : ℤ)), (r, 2 * (b : ℤ)), (s, (2 : ℤ))] := by
    show offs [(2, (1 : ℤ)), (r, 2 * (b : ℤ)), (s, 2), (1, 0)] = _
    rw [offs_perm (l := [(2, (1 : ℤ)), (r, 2 * (b : ℤ)), (s, 2), (1, (0 : ℤ))]) (l' := (1, (0 : ℤ)) :: [(2, (1 : ℤ)), (r, 2 * (b : ℤ)), (s, 2)])]
    · rw [offs_one]
    · exact (List.perm_middle (a := (1, (0 : ℤ))) (l₁ := [(2, (1 : ℤ)), (r, 2 * (b : ℤ)), (s, 2)]) (l₂ := []))
  have hB' : (offs [(2, (1 : ℤ)), (r, 2 * (b : ℤ)), (s, (2 : ℤ))]).Nodup := hB
  set B : Ptr := st.fresh with hBd
  have hBb : B.blk = st.next := rfl
  have ne : ∀ {p : Ptr} {x y : ℤ}, p.blk < st.next → p + x ≠ B + y := by
    intro p x y h he
    have h2 := congrArg Ptr.blk he
    have : p.blk = B.blk := h2
    omega
  set P' := P + (j : ℤ) * ms with hP'
  have hP'b : P'.blk < st.next := hP
  obtain ⟨fr1, v1⟩ := hci ⟨by rw [oB]; exact hB', by simp, by simp, by simp⟩ P' B st.malloc
    ⟨by show P'.blk < st.next + 1; omega, by show st.next < st.next + 1; omega, by simp, fun _ x _ y _ => ne hP'b⟩
  set st1 := Copy.cpy2dPairCi P' (P' + δ) B (B + (1 : ℤ)) r rs (2 * (b : ℤ)) s ms 2 st.malloc with hst1
  have hn1 : st.next + 1 ≤ st1.next := fr1.next
  obtain ⟨fr2, v2⟩ := h (by rw [oG]; exact hB') (B + (-((j : ℤ) * 2))) st1 (by show st.next < st1.next; omega)
  set st2 := g (B + (-((j : ℤ) * 2))) st1 with hst2
  have hn2 : st1.next ≤ st2.next := fr2.next
  obtain ⟨fr3, v3⟩ := hco ⟨by rw [oT]; exact hn, by simp, by simp, by simp⟩ B P' st2
    ⟨by rw [hBb]; omega, by omega, by simp, fun _ x _ y _ => (ne hP'b).symm⟩
  have loc : ∀ x ∈ outs (TwP.locT ⟨r, rs, rs, m, ms, 1, 0, 0, j, s⟩ δ), TwLoc ⟨r, rs, rs, m, ms, 1, 0, 0, j, s⟩ δ P (P' + x) := by
    intro x hx
    exact ⟨x, hx, by rw [hP', Ptr.add_add]⟩
  refine ⟨⟨le_refl _, ?_⟩, ?_⟩
  · intro q hq hw
    show (Copy.cpy2dPairCo B (B + (1 : ℤ)) P' (P' + δ) r (2 * (b : ℤ)) rs s 2 ms st2).mem q = st.mem q
    have hqB : ∀ x : ℤ, q ≠ B + x := by
      intro x e
      rw [e] at hq
      exact absurd hq (by show ¬ st.next < st.next; omega)
    rw [fr3.mem q (by omega), fr2.mem q (by omega), fr1.mem q (by show q.blk < st.next + 1; omega)]
    · rfl
    · rintro (⟨x, _, e⟩ | ⟨e, _⟩)
      · exact hqB _ e
      · simp at e
    · rintro ⟨x, _, e⟩
      rw [Ptr.add_add] at e
      exact hqB _ e
    · rintro (⟨x, hx, rfl⟩ | ⟨e, _⟩)
      · rw [oT] at hx; exact hw (loc x hx)
      · simp at e
  · intro k l i hk hl hl2 hi
    obtain rfl : i = 0 := by simp only at hi; omega
    simp only at hk hl hl2
    simp only [mul_zero, add_zero]
    show val (Copy.cpy2dPairCo B (B + (1 : ℤ)) P' (P' + δ) r (2 * (b : ℤ)) rs s 2 ms st2).mem P δ _ = _
    obtain ⟨a, rfl⟩ := Nat.exists_eq_add_of_le hl
    have ha : a < s := by omega
    have mem3 : ∀ k < r, (((a : ℤ) * 2 + (k : ℤ) * (2 * (b : ℤ)), (a : ℤ) * ms + (k : ℤ) * rs) : ℤ × ℤ) ∈ pairs (some [(⟨s, 2, ms⟩ : Dim), ⟨r, 2 * (b : ℤ), rs⟩]) := fun k hk =>
      mem_pairs_cons.2 ⟨a, ha, _, mem_pairs_cons.2 ⟨k, hk, 0, by simp [pairs, offs], rfl⟩, by simp⟩
    have mem1 : ∀ k < r, (((a : ℤ) * ms + (k : ℤ) * rs, (a : ℤ) * 2 + (k : ℤ) * (2 * (b : ℤ))) : ℤ × ℤ) ∈ pairs (some [(⟨s, ms, 2⟩ : Dim), ⟨r, rs, 2 * (b : ℤ)⟩]) := fun k hk =>
      mem_pairs_cons.2 ⟨a, ha, _, mem_pairs_cons.2 ⟨k, hk, 0, by simp [pairs, offs], rfl⟩, by simp⟩
    have shift : ∀ (μ : Ptr → ℝ) (p : Ptr) (δ e o : ℤ), (val μ (p + e) δ o : ℂ) = val μ p δ (o + e) := by
      intro μ p δ e o
      apply Elt.dec_congr
      intro c _
      rw [Ptr.add_add]; congr 2; ring
    have w3 := v3 [] ⟨rfl, by simp⟩ _ (mem3 k hk)
    simp only [gOut_nil, gSum, zero_add, hP', shift] at w3
    rw [show ((k : ℤ) * rs + ((j + a : ℕ) : ℤ) * ms) = (a : ℤ) * ms + (k : ℤ) * rs + (j : ℤ) * ms by push_cast; ring, w3]
    have w2 := v2 k (j + a) 0 hk (by simp only; omega) (by simp only; omega) (by simp)
    simp only [shift, mul_zero, add_zero] at w2
    rw [show (k : ℤ) * (2 * (b : ℤ)) + ((j + a : ℕ) : ℤ) * 2 + -((j : ℤ) * 2) = (a : ℤ) * 2 + (k : ℤ) * (2 * (b : ℤ)) by push_cast; ring] at w2
    rw [w2]
    apply twStep_congr
    intro k' hk'
    have w1 := v1 [] ⟨rfl, by simp⟩ _ (mem1 k' hk')
    simp only [gOut_nil, gSum, zero_add, hP', shift] at w1
    rw [show (k' : ℤ) * (2 * (b : ℤ)) + ((j + a : ℕ) : ℤ) * 2 + -((j : ℤ) * 2) = (a : ℤ) * 2 + (k' : ℤ) * (2 * (b : ℤ)) by push_cast; ring, w1,
      show ((k' : ℤ) * rs + ((j + a : ℕ) : ℤ) * ms) = (a : ℤ) * ms + (k' : ℤ) * rs + (j : ℤ) * ms by push_cast; ring]
    rfl

end FFTW.Spec

namespace FFTW.DftS
open Tensor Spec

theorem dftwDirect_sound (cexp : ℕ → ℤ → ℝ × ℝ) (c : KDftw) (dit : Bool) (hc : c.Sound cexp dit) (taste : TwP → Flags → Bool) :
    Inferior.Sound dit (dftwDirect cexp c taste) := by
  intro t rio iio fl hr hm0 hirs hors hms hivs hovs hm _
  unfold dftwDirect
  split
  · intro f hf; simp at hf
  rename_i extra happ
  split
  rotate_left
  · intro f hf; simp at hf
  obtain ⟨r, irs, ors, m, ms, v, ivs, ovs, mb, mc⟩ := t
  simp only at hr hm0 hm happ ⊢
  intro f hf
  obtain rfl := Option.some.inj hf
  clear hf
  unfold dftwApplicable at happ
  simp only at happ
  split at happ
  rotate_left
  · simp at happ
  rename_i h0
  obtain ⟨rfl, rfl, rfl⟩ := h0
  split at happ
  · rename_i hok
    split at happ
    rotate_left
    · simp at happ
    obtain rfl := Option.some.inj happ
    have := hc.run rio iio irs ivs m mb (mb + mc) ms fl 0 hok (by omega) hm (by omega)
    rw [Nat.add_sub_cancel_left] at this
    have h2 := TwOK_vloop (v := v) (vs := ivs) this
    have e : ∀ (P : Ptr) (i : ℕ), P + (iio - rio) + (i : ℤ) * ivs + (mb : ℤ) * ms = P + (i : ℤ) * ivs + (iio - rio) + (mb : ℤ) * ms := by
      intro P i; simp only [Ptr.add_add]; congr 1; ring
    simp only [Bool.false_eq_true, if_false, e]
    exact h2
  · rename_i hok
    split at happ
    rotate_left
    · simp at happ
    rename_i h1
    obtain ⟨hmb, hme, ok1, ok2⟩ := h1
    subst hmb
    rw [zero_add] at hme
    subst hme
    split at happ
    rotate_left
    · simp at happ
    obtain rfl := Option.some.inj happ
    simp only [zero_add] at ok1 ok2 hok ⊢
    have a1 := hc.run rio iio irs ivs mc 0 (mc - 1) ms fl 1 ok1 (by omega) (by omega) (by omega)
    have a2 := hc.extra rio iio irs ivs mc ms fl (by simpa using hok) ok1 ok2 (by omega)
    have h2 := TwOK_vloop (v := v) (vs := ivs) (TwOK_two (mc := mc) (by simpa using a1) (by simpa using a2) (by omega))
    have e : ∀ (P : Ptr) (i : ℕ) (x : ℤ), P + (iio - rio) + (i : ℤ) * ivs + x = P + (i : ℤ) * ivs + (iio - rio) + x := by
      intro P i x; simp only [Ptr.add_add]; congr 1; ring
    simp only [if_true, e]
    simpa using h2

theorem dftwDirectbuf_sound (cexp : ℕ → ℤ → ℝ × ℝ) (c : KDftw) (dit : Bool) (hc : c.Sound cexp dit) (taste : TwP → Flags → Bool) :
    Inferior.Sound dit (dftwDirectbuf cexp c taste) := by
  intro t rio iio fl hr hm0 hirs hors hms hivs hovs hm _
  unfold dftwDirectbuf
  split
  rotate_left
  · intro f hf; simp at hf
  rename_i happ
  obtain ⟨r, irs, ors, m, ms, v, ivs, ovs, mb, mc⟩ := t
  simp only at hr hm0 hm happ ⊢
  intro f hf
  obtain rfl := Option.some.inj hf
  clear hf
  simp only [dftwbufApplicable, Bool.and_eq_true, decide_eq_true_eq] at happ
  obtain ⟨⟨⟨⟨rfl, rfl, rfl⟩, ok1⟩, ok2⟩, -⟩ := happ
  set b := batchsize c.radix with hb
  have hb0 : 0 < b := batchsize_pos _
  obtain ⟨q, hq1, hq2⟩ : ∃ q, (q = 0 ∨ q * b < mc) ∧ mc ≤ (q + 1) * b := by
    refine ⟨(mc - 1) / b, ?_, ?_⟩
    · have := Nat.div_mul_le_self (mc - 1) b
      by_cases h : mc = 0
      · left; subst h; simp
      · right; omega
    · have := Nat.lt_div_mul_add (a := mc - 1) hb0
      rw [Nat.succ_mul]; omega
  have hqmc : q * b ≤ mc := by
    rcases hq1 with rfl | h
    · simp
    · exact h.le
  have hpiece : ∀ j < q + 1, TwOK dit ⟨c.radix, irs, irs, m, ms, 1, 0, 0, mb + j * b, if j < q then b else mc - q * b⟩ (iio - rio)
      (fun P => withBuf (dobatchW cexp c ⟨c.radix, irs, irs, m, ms, v, ivs, ivs, mb, mc⟩ P (P + (iio - rio)) (mb + j * b) (if j < q then b else mc - q * b))) := by
    intro j hj
    obtain ⟨s, hs⟩ : ∃ s, s = (if j < q then b else mc - q * b) := ⟨_, rfl⟩
    rw [← hs]
    have hsb : s ≤ b := by
      rw [hs]; split
      · exact le_rfl
      · rw [Nat.succ_mul] at hq2; omega
    have hs1 : s = b ∨ mb + j * b + s = mb + mc := by
      rw [hs]; split
      · exact Or.inl rfl
      · right
        obtain rfl : j = q := by omega
        omega
    have hs2 : mb + j * b + s ≤ mb + mc := by
      rw [hs]; split
      · rename_i h
        have := Nat.mul_le_mul_right b (show j + 1 ≤ q by omega)
        rw [Nat.succ_mul] at this
        omega
      · obtain rfl : j = q := by omega
        omega
    have h1 := hc.batch _ _ _ _ _ _ _ _ _ _ ok1 ok2 j s hs1 hs2 (by omega)
    have h2 := TwOK_buf (rs := irs) (ms := ms) (δ := iio - rio) hsb h1
    have e0 : null + (1 : ℤ) - null = (1 : ℤ) := rfl
    have e : ∀ B : Ptr, B + (-(((mb + j * b : ℕ) : ℤ) * 2)) + ((mb + j * b : ℕ) : ℤ) * 2 = B := by
      intro B; rw [Ptr.add_add, neg_add_cancel, Ptr.add_zero]
    have e2 : ∀ B : Ptr, B + (-(((mb + j * b : ℕ) : ℤ) * 2)) + (1 : ℤ) + ((mb + j * b : ℕ) : ℤ) * 2 = B + (1 : ℤ) := by
      intro B; simp only [Ptr.add_add]; congr 1; ring
    have e3 : ∀ P : Ptr, P + ((mb + j * b : ℕ) : ℤ) * ms + (iio - rio) = P + (iio - rio) + ((mb + j * b : ℕ) : ℤ) * ms := by
      intro P; simp only [Ptr.add_add, add_comm]
    simp only [e0, e, e2, e3] at h2
    exact h2
  have h3 := TwOK_vloop (v := v) (vs := ivs) (TwOK_cols (N := q + 1) (mb := mb) (mc := mc) (s := fun j => if j < q then b else mc - q * b) (a := fun j => if j ≤ q then mb + j * b else mb + mc) (by simp) (by
      intro j hj
      beta_reduce
      rw [if_pos (show j ≤ q by omega)]
      by_cases h : j < q
      · rw [if_pos (show j + 1 ≤ q by omega), if_pos h, Nat.succ_mul]; omega
      · obtain rfl : j = q := by omega
        rw [if_neg (by omega), if_neg (by omega)]; omega) (by simp) (fun j hj => by
      beta_reduce
      rw [if_pos (show j ≤ q by omega)]; exact hpiece j hj))
  have e : ∀ (P : Ptr) (i : ℕ), P + (iio - rio) + (i : ℤ) * ivs = P + (i : ℤ) * ivs + (iio - rio) := by
    intro P i; simp only [Ptr.add_add, add_comm]
  have hbe : ∀ (P : Ptr) (i : ℕ) (st : State), batches b hb0 (mb + mc) (fun j bs => withBuf (dobatchW cexp c ⟨c.radix, irs, irs, m, ms, v, ivs, ivs, mb, mc⟩
      (P + (i : ℤ) * ivs) (P + (iio - rio) + (i : ℤ) * ivs) j bs)) mb st = forN (q + 1) (fun j => withBuf (dobatchW cexp c ⟨c.radix, irs, irs, m, ms, v, ivs, ivs, mb, mc⟩
        (P + (i : ℤ) * ivs) (P + (i : ℤ) * ivs + (iio - rio)) (mb + j * b) (if j < q then b else mc - q * b))) st := by
    intro P i st
    rw [batches_eq b hb0 (mb + mc) _ q mb st (hq1.imp id fun h => by omega) (by omega), e, Nat.add_sub_add_left]
  convert h3 using 4
  exact funext fun st => hbe _ _ st

theorem dftwDirectsq_sound (cexp : ℕ → ℤ → ℝ × ℝ) (c : KDftwsq) (hc : c.Sound cexp) : Inferior.Sound false (dftwDirectsq cexp c) := by
  intro t rio iio fl hr hm0 hirs hors hms hivs hovs hm _
  unfold dftwDirectsq
  split
  rotate_left
  · intro f hf; simp at hf
  rename_i happ
  obtain ⟨r, irs, ors, m, ms, v, ivs, ovs, mb, mc⟩ := t
  simp only at hr hm0 hm happ ⊢
  intro f hf
  obtain rfl := Option.some.inj hf
  clear hf
  obtain ⟨rfl, rfl, rfl, rfl, hok⟩ := happ
  have := hc rio iio irs ivs m mb (mb + mc) ms fl hok (by omega) hm
  rw [Nat.add_sub_cancel_left] at this
  simpa only [Ptr.add_add] using this

end FFTW.DftS
