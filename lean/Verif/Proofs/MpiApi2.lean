import Verif.Proofs.MpiApi
import Verif.Proofs.Primes2

/-! `default_sz` and `local_size_guru` -/

namespace FFTW.Mpi
open Tensor Spec RdftS
variable [CLib]

/-- the block size meant by `b` -/
def pick (npes n b : ℕ) : ℕ := if npes > 1 ∧ b = 0 then defaultBlock n npes else if b = 0 then n else b

theorem defaultBlocks_whole {npes : ℕ} {ns : List ℕ} (h : ∀ n ∈ ns, 0 < n) (nb : ℕ) : defaultBlocks npes nb (whole ns) = ns := by
  induction ns with
  | nil => rfl
  | cons n ns ih =>
    have := h n (by simp)
    show defaultBlocks npes nb ((n, n) :: whole ns) = _
    rw [defaultBlocks, if_neg (by omega), if_neg (by omega), ih fun x hx => h x (by simp [hx])]

theorem whole_self {ns : List ℕ} (h : ∀ n ∈ ns, 0 < n) : ((whole ns).map fun d => (d.1, if d.2 = 0 then d.1 else d.2)) = whole ns := by
  induction ns with
  | nil => rfl
  | cons n ns ih =>
    have := h n (by simp)
    show (n, if n = 0 then n else n) :: ((whole ns).map _) = _
    rw [ih fun x hx => h x (by simp [hx]), if_neg (by omega)]; rfl

theorem chosen_first (npes : ℕ) {n : ℕ} (b : ℕ) {ns : List ℕ} (hn : 0 < n) (h : ∀ n ∈ ns, 0 < n) : chosenBlocks npes ((n, b) :: whole ns) = pick npes n b :: ns := by
  unfold chosenBlocks
  rw [List.map_cons, whole_self h, total_cons _ _ h, defaultBlocks]
  simp only
  unfold pick
  by_cases hb : b = 0
  · simp only [hb, if_true, numBlocks_self hn, Nat.div_one, and_true]
    split <;> rw [defaultBlocks_whole h]
  · simp [hb, defaultBlocks_whole h]

theorem chosen_second (npes : ℕ) {n : ℕ} (b : ℕ) {n' : ℕ} {ns : List ℕ} (hn : 0 < n) (h : ∀ n ∈ n' :: ns, 0 < n) :
    chosenBlocks npes ((n', n') :: (n, b) :: whole ns) = n' :: pick npes n b :: ns := by
  unfold chosenBlocks
  have h' : ∀ n ∈ ns, 0 < n := fun x hx => h x (by simp [hx])
  have hn' := h n' (by simp)
  rw [List.map_cons, List.map_cons, whole_self h', total_swap]
  simp only
  rw [if_neg (show ¬ n' = 0 by omega), show (n', n') :: whole ns = whole (n' :: ns) from rfl, total_cons _ _ h, defaultBlocks, if_neg (by omega), if_neg (by omega), defaultBlocks]
  congr 1
  unfold pick
  by_cases hb : b = 0
  · simp only [hb, if_true, numBlocks_self hn, Nat.div_one, and_true]
    split <;> rw [defaultBlocks_whole h']
  · simp [hb, defaultBlocks_whole h']

theorem pick_pos {npes n b : ℕ} (hn : 0 < n) : 0 < pick npes n b := by
  unfold pick
  split
  · exact defaultBlock_pos hn (by omega)
  · split <;> omega

theorem pick_lt {npes n b : ℕ} (hn : 1 < n) (hp : 1 < npes) (hb : b < n) : pick npes n b < n := by
  unfold pick
  split
  · unfold defaultBlock
    rw [Nat.div_lt_iff_lt_mul (by omega)]
    obtain ⟨k, rfl⟩ : ∃ k, npes = k + 2 := ⟨npes - 2, by omega⟩
    obtain ⟨m, rfl⟩ : ∃ m, n = m + 2 := ⟨n - 2, by omega⟩
    have : (m + 2) * (k + 2) = m * k + 2 * m + 2 * k + 4 := by ring
    rw [this]
    have := Nat.zero_le (m * k)
    omega
  · split
    · rename_i h1 h2; exact absurd ⟨hp, h2⟩ h1
    · exact hb

/-- one process -/
theorem chosen_one (D : List (ℕ × ℕ)) : chosenBlocks 1 D = D.map fun d => if d.2 = 0 then d.1 else d.2 := by
  unfold chosenBlocks
  generalize numBlocksTotal _ = nb
  induction D with
  | nil => rfl
  | cons d D ih =>
    obtain ⟨n, b⟩ := d
    rw [defaultBlocks, if_neg (by
      have : 1 / nb ≤ 1 := Nat.div_le_self 1 nb
      omega), ih]
    rfl

/-- distributions in the first or, transposed, the second dimension -/
structure Lay (npes : ℕ) (tIn tOut : Bool) (a b : DDim) (l : List DDim) : Prop where
  posA : 1 < a.n ∧ 0 < a.ib ∧ a.ib ≤ a.n ∧ 0 < a.ob ∧ a.ob ≤ a.n
  posB : 1 < b.n ∧ 0 < b.ib ∧ b.ib ≤ b.n ∧ 0 < b.ob ∧ b.ob ≤ b.n
  posL : ∀ d ∈ l, 1 < d.n ∧ d.ib = d.n ∧ d.ob = d.n
  inn : if tIn then a.ib = a.n else b.ib = b.n
  out : if tOut then a.ob = a.n else b.ob = b.n
  one : npes = 1 ∨ (1 < npes ∧ (if tIn then b.ib < b.n else a.ib < a.n) ∧ (if tOut then b.ob < b.n else a.ob < a.n))

theorem canonical_whole {n : ℕ} : (⟨n, n, n⟩ : DDim).canonical = ⟨n, n, n⟩ := by
  unfold DDim.canonical
  simp

/-- a block size of one kind: chosen -/
theorem chosen_kind (npes : ℕ) (t : Bool) {A B x y : ℕ} {ns : List ℕ} (hA : 0 < A) (hB : 0 < B) (h : ∀ n ∈ ns, 0 < n) (ht : if t then x = A else y = B) :
    chosenBlocks npes ((A, x) :: (B, y) :: whole ns) = (if t then A else pick npes A x) :: (if t then pick npes B y else B) :: ns := by
  cases t with
  | false =>
    simp only [Bool.false_eq_true, if_false] at ht ⊢
    subst ht
    exact chosen_first npes x (ns := y :: ns) hA (by simpa [hB] using h)
  | true =>
    simp only [if_true] at ht ⊢
    subst ht
    exact chosen_second npes y hB (by simpa [hA] using h)

theorem zip_whole (l : List ADim) : ((l.zip ((l.map fun d => d.n.toNat).zip (l.map fun d => d.n.toNat))).map fun x => (⟨x.1.n.toNat, x.2.1, x.2.2⟩ : DDim)).map DDim.canonical =
    l.map fun d => (⟨d.n.toNat, d.n.toNat, d.n.toNat⟩ : DDim) := by
  induction l with
  | nil => rfl
  | cons d l ih =>
    simp only [List.map_cons, List.zip_cons_cons]
    rw [ih, canonical_whole]

theorem defaultSz_long (npes : ℕ) (a b : ADim) (l : List ADim) {ci co : List ℕ} (hi : chosenBlocks npes ((a :: b :: l).map fun d => (d.n.toNat, d.ib.toNat)) = ci)
    (ho : chosenBlocks npes ((a :: b :: l).map fun d => (d.n.toNat, d.ob.toNat)) = co) :
    ∀ {i1 i2 o1 o2 : ℕ} {ci' co' : List ℕ}, ci = i1 :: i2 :: ci' → co = o1 :: o2 :: co' → defaultSz (a :: b :: l) npes =
      DDim.canonical ⟨a.n.toNat, i1, o1⟩ :: DDim.canonical ⟨b.n.toNat, i2, o2⟩ :: ((l.zip (ci'.zip co')).map fun x => (⟨x.1.n.toNat, x.2.1, x.2.2⟩ : DDim)).map DDim.canonical := by
  intro i1 i2 o1 o2 ci' co' e1 e2
  unfold defaultSz
  rw [hi, ho, e1, e2]
  rfl

theorem canonical_of {n i o : ℕ} (hn : 1 < n) (hi : 0 < i) (hi2 : i ≤ n) (ho : 0 < o) (ho2 : o ≤ n) : (⟨n, i, o⟩ : DDim).canonical = ⟨n, i, o⟩ := canonical_self ⟨hn, hi, hi2, ho, ho2⟩

theorem numBlocks_pos {n b : ℕ} (hn : 0 < n) (hb : 0 < b) : 0 < numBlocks n b := Nat.div_pos (by omega) hb

/-- one process: nothing is distributed -/
theorem one_process {d : DDim} (hn : 0 < d.n) (hi : 0 < d.ib) (ho : 0 < d.ob) (h1 : numBlocks d.canonical.n d.canonical.ib ≤ 1) (h2 : numBlocks d.canonical.n d.canonical.ob ≤ 1) :
    d.canonical = ⟨d.n, d.n, d.n⟩ := by
  unfold DDim.canonical at h1 h2 ⊢
  simp only at h1 h2
  have e1 : numBlocks d.n d.ib = 1 := by
    by_contra h
    rw [if_neg h] at h1
    have := numBlocks_pos hn hi
    omega
  have e2 : numBlocks d.n d.ob = 1 := by
    by_contra h
    rw [if_neg h] at h2
    have := numBlocks_pos hn ho
    omega
  rw [if_pos e1, if_pos e2]

theorem prod_le_one {l : List ℕ} (h : ∀ x ∈ l, 0 < x) (hp : l.prod ≤ 1) : ∀ x ∈ l, x ≤ 1 := by
  induction l with
  | nil => simp
  | cons a l ih =>
    rw [List.prod_cons] at hp
    have h1 : 0 < a := h a (by simp)
    have h2 : 0 < l.prod := List.prod_pos fun x hx => h x (by simp [hx])
    intro x hx
    rcases List.mem_cons.1 hx with rfl | hx
    · exact (Nat.le_mul_of_pos_right _ h2).trans hp
    · exact ih (fun x hx => h x (by simp [hx])) ((Nat.le_mul_of_pos_left _ h1).trans hp) x hx

theorem defaultSz_one {dims : List ADim} (h2 : 1 < dims.length) (hn : ∀ d ∈ dims, 1 < d.n) (hb : ∀ d ∈ dims, 0 ≤ d.ib ∧ 0 ≤ d.ob)
    (hi : numBlocksTotal (distr .IB (defaultSz dims 1)) ≤ 1) (ho : numBlocksTotal (distr .OB (defaultSz dims 1)) ≤ 1) :
    defaultSz dims 1 = dims.map fun d => (⟨d.n.toNat, d.n.toNat, d.n.toNat⟩ : DDim) := by
  have e : defaultSz dims 1 = dims.map fun d => DDim.canonical ⟨d.n.toNat, if d.ib.toNat = 0 then d.n.toNat else d.ib.toNat, if d.ob.toNat = 0 then d.n.toNat else d.ob.toNat⟩ := by
    obtain ⟨a, b, l, rfl⟩ : ∃ a b l, dims = a :: b :: l := by
      rcases dims with _ | ⟨a, _ | ⟨b, l⟩⟩
      · simp at h2
      · simp at h2
      · exact ⟨a, b, l, rfl⟩
    rw [defaultSz_long 1 a b l (chosen_one _) (chosen_one _) rfl rfl]
    simp only [List.map_cons]
    congr 2
    clear hi ho hn hb h2
    induction l with
    | nil => rfl
    | cons d l ih =>
      simp only [List.map_cons, List.zip_cons_cons]
      rw [ih]
  rw [e] at hi ho ⊢
  refine List.map_congr_left fun d hd => ?_
  have hd0 : 0 < d.n.toNat := by have := hn d hd; omega
  have hpos : ∀ d ∈ dims, 0 < (DDim.canonical ⟨d.n.toNat, if d.ib.toNat = 0 then d.n.toNat else d.ib.toNat, if d.ob.toNat = 0 then d.n.toNat else d.ob.toNat⟩).n ∧
      0 < (DDim.canonical ⟨d.n.toNat, if d.ib.toNat = 0 then d.n.toNat else d.ib.toNat, if d.ob.toNat = 0 then d.n.toNat else d.ob.toNat⟩).ib ∧
      0 < (DDim.canonical ⟨d.n.toNat, if d.ib.toNat = 0 then d.n.toNat else d.ib.toNat, if d.ob.toNat = 0 then d.n.toNat else d.ob.toNat⟩).ob := by
    intro d hd
    have := hn d hd
    unfold DDim.canonical
    simp only
    refine ⟨by omega, ?_, ?_⟩ <;> (repeat' split) <;> omega
  refine one_process hd0 ?_ ?_ ?_ ?_
  · show 0 < if d.ib.toNat = 0 then d.n.toNat else d.ib.toNat
    split <;> omega
  · show 0 < if d.ob.toNat = 0 then d.n.toNat else d.ob.toNat
    split <;> omega
  · unfold numBlocksTotal distr at hi
    rw [List.map_map, List.map_map] at hi
    refine prod_le_one ?_ hi _ (List.mem_map.2 ⟨d, hd, rfl⟩)
    intro x hx
    obtain ⟨e, he, rfl⟩ := List.mem_map.1 hx
    exact numBlocks_pos (hpos e he).1 (hpos e he).2.1
  · unfold numBlocksTotal distr at ho
    rw [List.map_map, List.map_map] at ho
    refine prod_le_one ?_ ho _ (List.mem_map.2 ⟨d, hd, rfl⟩)
    intro x hx
    obtain ⟨e, he, rfl⟩ := List.mem_map.1 hx
    exact numBlocks_pos (hpos e he).1 (hpos e he).2.2

/-- multi-dimensional transforms -/
theorem lay_of {a b : ADim} {l : List ADim} {npes : ℕ} {flags : MFlags} (hn : ∀ d ∈ a :: b :: l, 1 < d.n) (hb : ∀ d ∈ a :: b :: l, 0 ≤ d.ib ∧ 0 ≤ d.ob)
    (hl : LayoutOk (a :: b :: l) npes flags) (hi : numBlocksTotal (distr .IB (defaultSz (a :: b :: l) npes)) ≤ npes) (ho : numBlocksTotal (distr .OB (defaultSz (a :: b :: l) npes)) ≤ npes) :
    ∃ a' b' l', defaultSz (a :: b :: l) npes = a' :: b' :: l' ∧ (a' :: b' :: l').map DDim.n = (a :: b :: l).map (fun d => d.n.toNat) ∧ Lay npes flags.transposedIn flags.transposedOut a' b' l' := by
  have hA := hn a (by simp)
  have hB := hn b (by simp)
  have bA := hb a (by simp)
  have bB := hb b (by simp)
  have hL : ∀ n ∈ l.map (fun d => d.n.toNat), 0 < n := by
    intro n hn'
    obtain ⟨d, hd, rfl⟩ := List.mem_map.1 hn'
    have := hn d (by simp [hd])
    omega
  by_cases h1 : npes = 1
  · subst h1
    refine ⟨_, _, _, defaultSz_one (by simp) hn hb hi ho, ?_, ?_⟩
    · simp [List.map_map, Function.comp_def]
    · refine ⟨⟨by show 1 < a.n.toNat; omega, by show 0 < a.n.toNat; omega, le_rfl, by show 0 < a.n.toNat; omega, le_rfl⟩,
        ⟨by show 1 < b.n.toNat; omega, by show 0 < b.n.toNat; omega, le_rfl, by show 0 < b.n.toNat; omega, le_rfl⟩, ?_, ?_, ?_, .inl rfl⟩
      · intro d hd
        obtain ⟨e, he, rfl⟩ := List.mem_map.1 hd
        have := hn e (by simp [he])
        exact ⟨by show 1 < e.n.toNat; omega, rfl, rfl⟩
      · split <;> rfl
      · split <;> rfl
  · have hp : 1 < npes := by
      by_contra h
      have h0 : npes = 0 := by omega
      subst h0
      -- no processes: refused
      unfold numBlocksTotal at hi
      have : ∀ x ∈ (distr .IB (defaultSz (a :: b :: l) 0)).map fun d => numBlocks d.1 d.2, 0 < x := by
        rcases hl.2 with h | ⟨g1, g2, g3⟩
        · omega
        · have ci := chosen_kind 0 flags.transposedIn (A := a.n.toNat) (B := b.n.toNat) (x := a.ib.toNat) (y := b.ib.toNat) (ns := l.map fun d => d.n.toNat) (by omega) (by omega) hL
            (by split at g2 <;> simp_all)
          have co := chosen_kind 0 flags.transposedOut (A := a.n.toNat) (B := b.n.toNat) (x := a.ob.toNat) (y := b.ob.toNat) (ns := l.map fun d => d.n.toNat) (by omega) (by omega) hL
            (by split at g3 <;> simp_all)
          have ei : ((a :: b :: l).map fun d => (d.n.toNat, d.ib.toNat)) = (a.n.toNat, a.ib.toNat) :: (b.n.toNat, b.ib.toNat) :: whole (l.map fun d => d.n.toNat) := by
            simp only [List.map_cons, whole, List.map_map, Function.comp_def]
            congr 2
            exact List.map_congr_left fun d hd => by rw [(g1 d hd).1]
          have eo : ((a :: b :: l).map fun d => (d.n.toNat, d.ob.toNat)) = (a.n.toNat, a.ob.toNat) :: (b.n.toNat, b.ob.toNat) :: whole (l.map fun d => d.n.toNat) := by
            simp only [List.map_cons, whole, List.map_map, Function.comp_def]
            congr 2
            exact List.map_congr_left fun d hd => by rw [(g1 d hd).2]
          rw [defaultSz_long 0 a b l (ei ▸ ci) (eo ▸ co) rfl rfl]
          intro x hx
          simp only [distr, List.map_cons, List.mem_cons] at hx
          rw [zip_whole] at hx
          have hc : ∀ {n i o : ℕ}, 0 < n → 0 < i → 0 < numBlocks (DDim.canonical ⟨n, i, o⟩).n ((DDim.canonical ⟨n, i, o⟩).b .IB) := by
            intro n i o h1 h2
            refine numBlocks_pos h1 ?_
            show 0 < if numBlocks n i = 1 then n else i
            split <;> omega
          rcases hx with rfl | rfl | hx
          · exact hc (by omega) (by split; omega; exact pick_pos (by omega))
          · exact hc (by omega) (by split; exact pick_pos (by omega); omega)
          · rw [List.map_map, List.map_map] at hx
            obtain ⟨d, hd, rfl⟩ := List.mem_map.1 hx
            have := hn d (by simp [hd])
            exact numBlocks_pos (n := d.n.toNat) (b := d.n.toNat) (by omega) (by omega)
      have := List.prod_pos this
      omega
    rcases hl.2 with h | ⟨g1, g2, g3⟩
    · omega
    have ci := chosen_kind npes flags.transposedIn (A := a.n.toNat) (B := b.n.toNat) (x := a.ib.toNat) (y := b.ib.toNat) (ns := l.map fun d => d.n.toNat) (by omega) (by omega) hL
      (by split at g2 <;> simp_all)
    have co := chosen_kind npes flags.transposedOut (A := a.n.toNat) (B := b.n.toNat) (x := a.ob.toNat) (y := b.ob.toNat) (ns := l.map fun d => d.n.toNat) (by omega) (by omega) hL
      (by split at g3 <;> simp_all)
    have ei : ((a :: b :: l).map fun d => (d.n.toNat, d.ib.toNat)) = (a.n.toNat, a.ib.toNat) :: (b.n.toNat, b.ib.toNat) :: whole (l.map fun d => d.n.toNat) := by
      simp only [List.map_cons, whole, List.map_map, Function.comp_def]
      congr 2
      exact List.map_congr_left fun d hd => by rw [(g1 d hd).1]
    have eo : ((a :: b :: l).map fun d => (d.n.toNat, d.ob.toNat)) = (a.n.toNat, a.ob.toNat) :: (b.n.toNat, b.ob.toNat) :: whole (l.map fun d => d.n.toNat) := by
      simp only [List.map_cons, whole, List.map_map, Function.comp_def]
      congr 2
      exact List.map_congr_left fun d hd => by rw [(g1 d hd).2]
    have pI : ∀ {n b : ℕ} (t : Bool), 1 < n → (t = true → b < n) → 0 < (if t then pick npes n b else n) ∧ (if t then pick npes n b else n) ≤ n ∧ (t = true → (if t then pick npes n b else n) < n) := by
      intro n b t h1 h2
      cases t with
      | false => exact ⟨by simp; omega, by simp, by simp⟩
      | true => exact ⟨by simpa using pick_pos (by omega), by simpa using (pick_lt h1 hp (h2 rfl)).le, fun _ => by simpa using pick_lt h1 hp (h2 rfl)⟩
    have i1 := pI (n := a.n.toNat) (b := a.ib.toNat) (!flags.transposedIn) (by omega) (by intro h; simp at h; simp [h] at g2; omega)
    have i2 := pI (n := b.n.toNat) (b := b.ib.toNat) flags.transposedIn (by omega) (by intro h; simp [h] at g2; omega)
    have o1 := pI (n := a.n.toNat) (b := a.ob.toNat) (!flags.transposedOut) (by omega) (by intro h; simp at h; simp [h] at g3; omega)
    have o2 := pI (n := b.n.toNat) (b := b.ob.toNat) flags.transposedOut (by omega) (by intro h; simp [h] at g3; omega)
    have sw : ∀ (t : Bool) (x y : ℕ), (if (!t) = true then x else y) = if t = true then y else x := by intro t x y; cases t <;> rfl
    rw [sw] at i1 o1
    refine ⟨⟨a.n.toNat, if flags.transposedIn then a.n.toNat else pick npes a.n.toNat a.ib.toNat, if flags.transposedOut then a.n.toNat else pick npes a.n.toNat a.ob.toNat⟩,
      ⟨b.n.toNat, if flags.transposedIn then pick npes b.n.toNat b.ib.toNat else b.n.toNat, if flags.transposedOut then pick npes b.n.toNat b.ob.toNat else b.n.toNat⟩,
      l.map fun d => (⟨d.n.toNat, d.n.toNat, d.n.toNat⟩ : DDim), (defaultSz_long npes a b l (ei ▸ ci) (eo ▸ co) rfl rfl).trans ?_, ?_, ?_⟩
    · rw [canonical_of (by omega) i1.1 i1.2.1 o1.1 o1.2.1, canonical_of (by omega) i2.1 i2.2.1 o2.1 o2.2.1, zip_whole]
    · simp [List.map_map, Function.comp_def]
    · refine ⟨⟨by show 1 < a.n.toNat; omega, i1.1, i1.2.1, o1.1, o1.2.1⟩, ⟨by show 1 < b.n.toNat; omega, i2.1, i2.2.1, o2.1, o2.2.1⟩, ?_, ?_, ?_, .inr ⟨hp, ?_, ?_⟩⟩
      · intro d hd
        obtain ⟨e, he, rfl⟩ := List.mem_map.1 hd
        have := hn e (by simp [he])
        exact ⟨by show 1 < e.n.toNat; omega, rfl, rfl⟩
      · cases flags.transposedIn <;> rfl
      · cases flags.transposedOut <;> rfl
      · have a1 := i1.2.2
        have a2 := i2.2.2
        cases h : flags.transposedIn
        · rw [h] at a1; exact a1 rfl
        · rw [h] at a2; exact a2 rfl
      · have a1 := o1.2.2
        have a2 := o2.2.2
        cases h : flags.transposedOut
        · rw [h] at a1; exact a1 rfl
        · rw [h] at a2; exact a2 rfl

end FFTW.Mpi
