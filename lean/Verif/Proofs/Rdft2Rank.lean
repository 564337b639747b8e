import Verif.Proofs.Rdft2Solvers

/-! # rank-geq2-rdft2 -/

namespace FFTW
open Tensor Spec DftS RdftS

/-! ### where the reals of the rows are -/

theorem zig_offs (δ cs : ℤ) (m : ℕ) : (Multiset.range (2 * m)).map (zig δ cs) = offs [(2, δ), (m, cs)] := by
  rw [offs_perm (List.Perm.swap _ _ _)]
  have inner : offs [((2, δ) : ℕ × ℤ)] = {0} + {δ} := by
    rw [offs1_eq, show Multiset.range 2 = {0} + {1} from rfl]; simp
  have e : offs [((m, cs) : ℕ × ℤ), (2, δ)] = (Multiset.range m).bind fun j => ({(j : ℤ) * cs} + {(j : ℤ) * cs + δ} : Multiset ℤ) := by
    rw [offs, inner]; simp
  rw [e]
  clear e
  induction m with
  | zero => simp
  | succ m ih =>
    rw [show 2 * (m + 1) = 2 * m + 1 + 1 by ring, Multiset.range_succ, Multiset.range_succ, Multiset.map_cons, Multiset.map_cons, ih,
      Multiset.range_succ, Multiset.cons_bind]
    have e0 : zig δ cs (2 * m) = (m : ℤ) * cs := by simp [zig]
    have e1 : zig δ cs (2 * m + 1) = (m : ℤ) * cs + δ := by
      simp only [zig]; rw [show (2 * m + 1) % 2 = 1 by omega, show (2 * m + 1) / 2 = m by omega]; push_cast; ring
    rw [e0, e1]
    rw [← Multiset.singleton_add, ← Multiset.singleton_add, ← add_assoc, add_comm {(m : ℤ) * cs + δ}]

theorem outs_app (l : List Dim) (T : Tensor) : outs (append (some l) T) = spread (outs (some l)) (outs T) := by
  rw [spread_comm]
  cases T with
  | none => simp only [append, outs, Multiset.map_zero, Multiset.bind_zero]
  | some b =>
    simp only [append, outs, List.map_append, offs_append]
    exact Multiset.bind_congr fun x _ => Multiset.map_congr rfl fun y _ => add_comm _ _
theorem ins_app (l : List Dim) (T : Tensor) : ins (append (some l) T) = spread (ins (some l)) (ins T) := by
  rw [spread_comm]
  cases T with
  | none => simp only [append, ins, Multiset.map_zero, Multiset.bind_zero]
  | some b =>
    simp only [append, ins, List.map_append, offs_append]
    exact Multiset.bind_congr fun x _ => Multiset.map_congr rfl fun y _ => add_comm _ _

theorem hOuts_zig {h : Half} {m : ℕ} {δ cs : ℤ} (h1 : h.nb = 2 * m) (h2 : h.B = zig δ cs) (a b : ℤ) (T : Tensor) :
    hOuts h T = outs (append (some [⟨2, a, δ⟩, ⟨m, b, cs⟩]) T) := by
  rw [outs_app, hOuts, h1, h2, zig_offs]; rfl
theorem hIns_zig {h : Half} {m : ℕ} {δ cs : ℤ} (h1 : h.na = 2 * m) (h2 : h.A = zig δ cs) (a b : ℤ) (T : Tensor) :
    hIns h T = ins (append (some [⟨2, δ, a⟩, ⟨m, cs, b⟩]) T) := by
  rw [ins_app, hIns, h1, h2, zig_offs]; rfl

theorem hIns_pairs {h : Half} {T T' : Tensor} (hp : pairs T = pairs T') : hIns h T = hIns h T' := by rw [hIns, hIns, ins_eq, ins_eq, hp]
theorem hOuts_pairs {h : Half} {T T' : Tensor} (hp : pairs T = pairs T') : hOuts h T = hOuts h T' := by rw [hOuts, hOuts, outs_eq, outs_eq, hp]
theorem hAll_pairs {h : Half} {T T' : Tensor} (hp : pairs T = pairs T') : hAll h T = hAll h T' := by rw [hAll, hAll, ins_eq, ins_eq, hp]

theorem _root_.FFTW.Spec.HWF.move {h : Half} {a b : List Dim} {vec vec' : Tensor} {inpl nd : Bool} (wf : HWF h a vec inpl nd)
    (hp : pairs (append (some a) vec) = pairs (append (some b) vec')) : HWF h b vec' inpl nd :=
  ⟨by rw [← hOuts_pairs hp]; exact wf.out, fun hh => by rw [← hIns_pairs hp]; exact wf.inp hh,
    fun hh => by rw [← hp]; exact wf.eq hh, fun hh => by rw [← hAll_pairs hp]; exact wf.all hh⟩

/-! ### sums -/

theorem gSum_lin {τ V : Type} [CommRing V] {K : τ → ℕ → ℕ → ℕ → V} (dk : List ((Dim × τ) × ℕ)) (s : Finset ℕ) (w : ℕ → V) : ∀ F : ℕ → ℤ → V,
    ∑ p ∈ s, w p * gSum K dk (F p) = gSum K dk fun o => ∑ p ∈ s, w p * F p o := by
  induction dk with
  | nil => intro F; rfl
  | cons e dk ih =>
    intro F
    obtain ⟨⟨d, t⟩, k⟩ := e
    simp only [gSum, Finset.mul_sum]
    rw [Finset.sum_comm]
    refine Finset.sum_congr rfl fun j _ => ?_
    rw [← ih fun p o => F p (j * d.is + o), Finset.mul_sum]
    exact Finset.sum_congr rfl fun p _ => by ring

/-- real and imaginary part exchanged -/
def cswap (z : ℂ) : ℂ := ⟨z.im, z.re⟩

theorem cswap_add (a b : ℂ) : cswap (a + b) = cswap a + cswap b := by apply Complex.ext <;> simp [cswap]
theorem cswap_mul (a b : ℂ) : cswap (a * b) = star a * cswap b := by
  apply Complex.ext <;> simp [cswap] <;> ring
theorem cswap_sum (s : Finset ℕ) (f : ℕ → ℂ) : cswap (∑ i ∈ s, f i) = ∑ i ∈ s, cswap (f i) := by
  induction s using Finset.cons_induction with
  | empty => simp [cswap]; rfl
  | cons a s ha ih => rw [Finset.sum_cons, Finset.sum_cons, cswap_add, ih]

theorem gSum_cswap (dk : List ((Dim × Unit) × ℕ)) : ∀ F : ℤ → ℂ, cswap (gSum dftK dk F) = gSum idftK dk fun o => cswap (F o) := by
  induction dk with
  | nil => intro F; rfl
  | cons e dk ih =>
    intro F
    obtain ⟨⟨d, t⟩, k⟩ := e
    simp only [gSum]
    rw [cswap_sum]
    refine Finset.sum_congr rfl fun j _ => ?_
    rw [cswap_mul, ih]; rfl

theorem gIn_mem {τ : Type} {sz : List (Dim × τ)} {dk : List ((Dim × τ) × ℕ)} (h : GIdx sz dk) :
    (gOut (dk.map fun e => (inpl1 .IS e.1, e.2)), gOut dk) ∈ pairs (some (sz.map Prod.fst)) := by
  obtain ⟨rfl, hd2⟩ := h
  induction dk with
  | nil => simp [pairs, offs, gOut]
  | cons e dk ih =>
    rw [List.map_cons, List.map_cons, mem_pairs_cons]
    refine ⟨e.2, hd2 e (by simp), _, ih (fun e he => hd2 e (by simp [he])), ?_⟩
    rw [gOut_cons, List.map_cons, gOut_cons]; simp [inpl1, Dim.inplace]

theorem val_c' (m : Ptr → ℝ) (p : Ptr) (δ o : ℤ) : (val m p δ o : ℂ) = ⟨m (p + o), m (p + (δ + o))⟩ := by
  apply Complex.ext <;> simp [val, Elt.dec]

theorem gSum_IS {K : Unit → ℕ → ℕ → ℕ → ℂ} (dk : List ((Dim × Unit) × ℕ)) (F : ℤ → ℂ) :
    gSum K (dk.map fun e => (inpl1 .IS e.1, e.2)) F = gSum K dk F := by
  refine gSum_restride (K := K) (dk := dk) (Dim.inplace .IS) (fun d => by simp) (x := F) (y := F) ?_
  intro p hp
  have hh : (dk.map fun e => (e.1.1.n, ((e.1.1.is, (e.1.1.inplace .IS).is) : ℤ × ℤ))) =
      (dk.map fun e => (e.1.1.n, e.1.1.is)).map fun d => (d.1, ((AddMonoidHom.id ℤ).prod (AddMonoidHom.id ℤ)) d.2) := by
    simp [List.map_map, Function.comp_def, Dim.inplace]
  rw [hh, ← offs_map, Multiset.mem_map] at hp
  obtain ⟨x, _, rfl⟩ := hp
  rfl

variable [CLib]

/-! ### forward -/

theorem HOK_split_r2c {szA szB v : List Dim} {n : ℕ} {ρ rs δ cs : ℤ} {inpl nd nd2 : Bool} {f1 f2 : Ptr → Ptr → State → State}
    (h1 : HOK (r2cHalf n ρ rs δ cs) (tag szB) (append (some v) (some szA)) inpl nd f1)
    (h2 : GOK dftK (tag (szA.map (Dim.inplace .OS)))
      (append (copyInplace .OS (some v)) (some (szB.map (Dim.inplace .OS) ++ [⟨n / 2 + 1, cs, cs⟩]))) δ δ true nd2 f2) :
    HOK (r2cHalf n ρ rs δ cs) (tag (szA ++ szB)) (some v) inpl nd (fun I O st => f2 O O (f1 I O st)) := by
  set h := r2cHalf n ρ rs δ cs with hh
  have hT : pairs (append (some ((tag (szA ++ szB)).map Prod.fst)) (some v)) = pairs (append (some ((tag szB).map Prod.fst)) (append (some v) (some szA))) := by
    rw [map_fst_tag, map_fst_tag]
    simp only [append]
    apply pairs_perm
    rw [List.append_assoc, ← List.append_assoc szB]
    exact (List.perm_append_comm).trans (List.Perm.refl _)
  intro wf I O st hc
  set T := append (some ((tag (szA ++ szB)).map Prod.fst)) (some v) with hTd
  set T1 := append (some ((tag szB).map Prod.fst)) (append (some v) (some szA)) with hT1
  have wf1 := wf.move hT
  have hc1 : HCompat h T1 inpl I O st := ⟨hc.blkI, hc.blkO, hc.same, fun hn => (hc.disj hn).of_pairs hT.symm⟩
  obtain ⟨fr1, v1⟩ := h1 wf1 I O st hc1
  set st1 := f1 I O st with hst1
  -- the in-place child touches exactly the output locations
  have hloc : locT ℂ δ δ (tag (szA.map (Dim.inplace .OS))) (append (copyInplace .OS (some v)) (some (szB.map (Dim.inplace .OS) ++ [⟨n / 2 + 1, cs, cs⟩]))) =
      some (⟨2, δ, δ⟩ :: (szA.map (Dim.inplace .OS) ++ (v.map (Dim.inplace .OS) ++ (szB.map (Dim.inplace .OS) ++ [⟨n / 2 + 1, cs, cs⟩])))) := by
    unfold locT; rw [map_fst_tag]; rfl
  have hinp : ∀ (l : List Dim), (l.map (Dim.inplace .OS)).map (fun d => (d.n, d.is)) = l.map fun d => (d.n, d.os) := by
    intro l; rw [List.map_map]; rfl
  have hinp' : ∀ (l : List Dim), (l.map (Dim.inplace .OS)).map (fun d => (d.n, d.os)) = l.map fun d => (d.n, d.os) := by
    intro l; rw [List.map_map]; rfl
  have perm : (((2, δ) : ℕ × ℤ) :: (szA.map (fun d => (d.n, d.os)) ++ (v.map (fun d => (d.n, d.os)) ++ (szB.map (fun d => (d.n, d.os)) ++ [(n / 2 + 1, cs)])))).Perm
      ((2, δ) :: (n / 2 + 1, cs) :: ((szA.map (fun d => (d.n, d.os)) ++ szB.map (fun d => (d.n, d.os))) ++ v.map fun d => (d.n, d.os))) := by
    refine List.Perm.cons _ ?_
    rw [← List.append_assoc, ← List.append_assoc]
    refine (List.perm_append_singleton _ _).trans (List.Perm.cons _ ?_)
    rw [List.append_assoc, List.append_assoc]
    exact List.Perm.append_left _ List.perm_append_comm
  have hO : hOuts h T = offs (((2, δ) : ℕ × ℤ) :: (n / 2 + 1, cs) :: ((szA.map (fun d => (d.n, d.os)) ++ szB.map (fun d => (d.n, d.os))) ++ v.map fun d => (d.n, d.os))) := by
    rw [hOuts_zig (m := n / 2 + 1) (δ := δ) (cs := cs) rfl rfl 0 0, hTd, map_fst_tag]
    simp [append, outs]
  have hI2 : ins (locT ℂ δ δ (tag (szA.map (Dim.inplace .OS))) (append (copyInplace .OS (some v)) (some (szB.map (Dim.inplace .OS) ++ [⟨n / 2 + 1, cs, cs⟩])))) =
      hOuts h T := by
    rw [hO, ← offs_perm perm, hloc, ins]
    simp only [List.map_cons, List.map_append, hinp, List.map_nil]
  have hO2 : outs (locT ℂ δ δ (tag (szA.map (Dim.inplace .OS))) (append (copyInplace .OS (some v)) (some (szB.map (Dim.inplace .OS) ++ [⟨n / 2 + 1, cs, cs⟩])))) =
      hOuts h T := by
    rw [hO, ← offs_perm perm, hloc, outs]
    simp only [List.map_cons, List.map_append, hinp', List.map_nil]
  obtain ⟨fr2, v2⟩ := h2 ⟨by rw [hO2]; exact wf.out, fun _ => by rw [hI2]; exact wf.out, fun _ => by rw [hI2, hO2], fun _ => rfl⟩ O O st1
    ⟨lt_of_lt_of_le hc.blkO fr1.next, lt_of_lt_of_le hc.blkO fr1.next, fun _ => rfl, fun h => by simp at h⟩
  refine ⟨fr1.trans fr2 ?_ ?_, ?_⟩
  · rintro q _ (hq | ⟨hn, hq⟩)
    · left; rw [hOuts_pairs hT]; exact hq
    · right; rw [hIns_pairs hT]; exact ⟨hn, hq⟩
  · rintro q _ (hq | ⟨_, hq⟩)
    · rw [hO2] at hq; exact Or.inl hq
    · rw [hI2] at hq; exact Or.inl hq
  · intro dk hdk ab hab t ht
    rw [tag_append] at hdk
    obtain ⟨dk1, dk2, rfl, hd1, hd2⟩ := hdk.split
    set p := t / 2 with hp
    have hpn : p < n / 2 + 1 := by
      have : t < 2 * (n / 2 + 1) := ht
      omega
    have := v2 _ (by rw [tag_inplace]; exact hd1.inplace .OS) (ab.2 + (gOut dk2 + (p : ℤ) * cs), ab.2 + (gOut dk2 + (p : ℤ) * cs)) ?_
    rotate_left
    · rw [pairs_append_mem]
      obtain ⟨a2, ha2⟩ := gOut_mem hd2
      refine ⟨(ab.2, ab.2), ?_, (gOut dk2 + (p : ℤ) * cs, gOut dk2 + (p : ℤ) * cs), ?_, rfl⟩
      · rw [pairs_copyInplace_OS, Multiset.mem_map]
        exact ⟨ab.2, mem_outs.2 ⟨ab.1, hab⟩, rfl⟩
      · rw [mem_pairs_append]
        have := pairs_copyInplace_OS (some ((tag szB).map Prod.fst))
        simp only [copyInplace, Option.map_some] at this
        refine ⟨(gOut dk2, gOut dk2), ?_, ((p : ℤ) * cs, (p : ℤ) * cs), mem_pairs1.2 ⟨p, hpn, rfl⟩, rfl⟩
        rw [map_fst_tag] at this
        rw [this, Multiset.mem_map]
        rw [map_fst_tag] at ha2
        exact ⟨gOut dk2, mem_outs.2 ⟨a2, ha2⟩, rfl⟩
    · rw [gOut_inplace_OS] at this
      have hres : gSum dftK (dk1.map fun e => (inpl1 .OS e.1, e.2)) (fun o => (val st1.mem O δ (o + (ab.2 + (gOut dk2 + (p : ℤ) * cs))) : ℂ)) =
          gSum dftK (dk1 ++ dk2) fun o => ∑ i ∈ Finset.range h.na, h.c t i * ((st.mem (I + (o + ab.1 + h.A i)) : ℝ) : ℂ) := by
        rw [gSum_append]
        apply gSum_restride (K := dftK) (dk := dk1) (Dim.inplace .OS) (fun d => by simp)
        intro q hq
        have hq' : q ∈ pairs (some szA) := by
          have e := hd1.1
          have e2 : szA = dk1.map fun e => e.1.1 := by
            have := congrArg (List.map Prod.fst) e
            rw [map_fst_tag, List.map_map] at this
            exact this.symm
          rw [e2, pairs, List.map_map]
          exact hq
        have h3 := fun t' ht' => v1 dk2 hd2 (ab + q) (pairs_append_mem.2 ⟨ab, hab, q, hq', rfl⟩) t' ht'
        have e0 := h3 (2 * p) (by show 2 * p < 2 * (n / 2 + 1); omega)
        have e1 := h3 (2 * p + 1) (by show 2 * p + 1 < 2 * (n / 2 + 1); omega)
        have c0 : ∀ i, h.c (2 * p) i = h.c t i := fun i => by
          show ω n ^ (i * (2 * p / 2)) = ω n ^ (i * (t / 2)); rw [show 2 * p / 2 = t / 2 by omega]
        have c1 : ∀ i, h.c (2 * p + 1) i = h.c t i := fun i => by
          show ω n ^ (i * ((2 * p + 1) / 2)) = ω n ^ (i * (t / 2)); rw [show (2 * p + 1) / 2 = t / 2 by omega]
        have b0 : h.B (2 * p) = (p : ℤ) * cs := by
          show zig δ cs (2 * p) = _; simp [zig]
        have b1 : h.B (2 * p + 1) = δ + (p : ℤ) * cs := by
          show zig δ cs (2 * p + 1) = _
          simp only [zig]; rw [show (2 * p + 1) % 2 = 1 by omega, show (2 * p + 1) / 2 = p by omega]; push_cast; ring
        have P0 : h.P (2 * p) = Complex.re := by show (if (2 * p) % 2 = 0 then Complex.re else Complex.im) = _; rw [if_pos (by omega)]
        have P1 : h.P (2 * p + 1) = Complex.im := by show (if (2 * p + 1) % 2 = 0 then Complex.re else Complex.im) = _; rw [if_neg (by omega)]
        simp only [c0, c1, P0, P1, b0, b1] at e0 e1
        have hin : ∀ o i, I + (o + (ab + q).1 + h.A i) = I + (q.1 + o + ab.1 + h.A i) := by
          intro o i; congr 1; simp only [Prod.fst_add]; ring
        simp only [hin] at e0 e1
        rw [val_c']
        apply Complex.ext
        · rw [← show h.K = dftK from rfl]
          rw [← e0]; dsimp only; congr 2; simp only [Prod.snd_add]; ring
        · rw [← show h.K = dftK from rfl]
          rw [← e1]; dsimp only; congr 2; simp only [Prod.snd_add]; ring
      rw [hres, val_c'] at this
      show (f2 O O st1).mem (O + (gOut (dk1 ++ dk2) + ab.2 + zig δ cs t)) = (if t % 2 = 0 then Complex.re else Complex.im) (gSum dftK (dk1 ++ dk2) _)
      rw [← this, gOut_append]
      by_cases he : t % 2 = 0
      · rw [if_pos he]
        dsimp only
        congr 2
        simp only [zig, he, hp]; push_cast; ring
      · rw [if_neg he]
        dsimp only
        congr 2
        simp only [zig, show t % 2 = 1 by omega, hp]; push_cast; ring

/-! ### backward -/

omit [CLib] in
theorem offs_flip (δ : ℤ) (l : List (ℕ × ℤ)) : (offs ((2, -δ) :: l)).map (fun x => δ + x) = offs ((2, δ) :: l) := by
  have two : ∀ δ : ℤ, offs ((2, δ) :: l) = offs l + (offs l).map fun x => δ + x := by
    intro δ
    rw [offs, show Multiset.range 2 = {0} + {1} from rfl, Multiset.add_bind, Multiset.singleton_bind, Multiset.singleton_bind]
    simp
  rw [two, two, Multiset.map_add, Multiset.map_map, add_comm]
  congr 1
  simp

theorem HOK_split_c2r {szA szB v : List Dim} {n : ℕ} {ρ rs δ cs : ℤ} {inpl nd nd1 : Bool} {f1 f2 : Ptr → Ptr → State → State}
    (h1 : GOK dftK (tag (szA.map (Dim.inplace .IS)))
      (append (copyInplace .IS (some v)) (some (szB.map (Dim.inplace .IS) ++ [⟨n / 2 + 1, cs, cs⟩]))) (-δ) (-δ) true nd1 f1)
    (h2 : HOK (c2rHalf n ρ rs δ cs) (tag szB) (append (some v) (some szA)) inpl nd f2)
    (hnd : nd = false ∨ inpl = true) :
    HOK (c2rHalf n ρ rs δ cs) (tag (szA ++ szB)) (some v) inpl nd (fun I O st => f2 I O (f1 (I + δ) (I + δ) st)) := by
  set h := c2rHalf n ρ rs δ cs with hh
  have hT : pairs (append (some ((tag (szA ++ szB)).map Prod.fst)) (some v)) = pairs (append (some ((tag szB).map Prod.fst)) (append (some v) (some szA))) := by
    rw [map_fst_tag, map_fst_tag]
    simp only [append]
    apply pairs_perm
    rw [List.append_assoc, ← List.append_assoc szB]
    exact (List.perm_append_comm).trans (List.Perm.refl _)
  intro wf I O st hc
  set T := append (some ((tag (szA ++ szB)).map Prod.fst)) (some v) with hTd
  set T1 := append (some ((tag szB).map Prod.fst)) (append (some v) (some szA)) with hT1
  have wf2 := wf.move hT
  -- the in-place child touches exactly the input locations
  have hloc : locT ℂ (-δ) (-δ) (tag (szA.map (Dim.inplace .IS))) (append (copyInplace .IS (some v)) (some (szB.map (Dim.inplace .IS) ++ [⟨n / 2 + 1, cs, cs⟩]))) =
      some (⟨2, -δ, -δ⟩ :: (szA.map (Dim.inplace .IS) ++ (v.map (Dim.inplace .IS) ++ (szB.map (Dim.inplace .IS) ++ [⟨n / 2 + 1, cs, cs⟩])))) := by
    unfold locT; rw [map_fst_tag]; rfl
  have hinp : ∀ (l : List Dim), (l.map (Dim.inplace .IS)).map (fun d => (d.n, d.is)) = l.map fun d => (d.n, d.is) := by
    intro l; rw [List.map_map]; rfl
  have hinp' : ∀ (l : List Dim), (l.map (Dim.inplace .IS)).map (fun d => (d.n, d.os)) = l.map fun d => (d.n, d.is) := by
    intro l; rw [List.map_map]; rfl
  have perm : (szA.map (fun d => (d.n, d.is)) ++ (v.map (fun d => (d.n, d.is)) ++ (szB.map (fun d => (d.n, d.is)) ++ [(n / 2 + 1, cs)]))).Perm
      ((n / 2 + 1, cs) :: ((szA.map (fun d => (d.n, d.is)) ++ szB.map (fun d => (d.n, d.is))) ++ v.map fun d => (d.n, d.is))) := by
    rw [← List.append_assoc, ← List.append_assoc]
    refine (List.perm_append_singleton _ _).trans (List.Perm.cons _ ?_)
    rw [List.append_assoc, List.append_assoc]
    exact List.Perm.append_left _ List.perm_append_comm
  have hO : hIns h T = offs (((2, δ) : ℕ × ℤ) :: (n / 2 + 1, cs) :: ((szA.map (fun d => (d.n, d.is)) ++ szB.map (fun d => (d.n, d.is))) ++ v.map fun d => (d.n, d.is))) := by
    rw [hIns_zig (m := n / 2 + 1) (δ := δ) (cs := cs) rfl rfl 0 0, hTd, map_fst_tag]
    simp [append, ins]
  set T2 := locT ℂ (-δ) (-δ) (tag (szA.map (Dim.inplace .IS))) (append (copyInplace .IS (some v)) (some (szB.map (Dim.inplace .IS) ++ [⟨n / 2 + 1, cs, cs⟩]))) with hT2
  have hI2 : (ins T2).map (fun x => δ + x) = hIns h T := by
    rw [hO, ← offs_flip, hloc, ins]
    simp only [List.map_cons, List.map_append, hinp, List.map_nil]
    rw [offs_perm (perm.cons _)]
  have hO2 : outs T2 = ins T2 := by
    rw [hloc, outs, ins]
    simp only [List.map_cons, List.map_append, hinp, hinp', List.map_nil]
  have hnd2 : (ins T2).Nodup := Multiset.Nodup.of_map _ (by rw [hI2]; exact wf.inp hnd)
  have hblk : (I + δ).blk < st.next := hc.blkI
  obtain ⟨fr1, v1⟩ := h1 ⟨by rw [← hT2, hO2]; exact hnd2, fun _ => hnd2, fun _ => hO2.symm, fun _ => rfl⟩ (I + δ) (I + δ) st
    ⟨hblk, hblk, fun _ => rfl, fun h => by simp at h⟩
  set st1 := f1 (I + δ) (I + δ) st with hst1
  have hc1 : HCompat h T1 inpl I O st1 :=
    ⟨lt_of_lt_of_le hc.blkI fr1.next, lt_of_lt_of_le hc.blkO fr1.next, hc.same, fun hn => (hc.disj hn).of_pairs hT.symm⟩
  obtain ⟨fr2, v2⟩ := h2 wf2 I O st1 hc1
  have hw : ∀ q : Ptr, (∃ a ∈ ins T2, q = I + δ + a) → HWritable h T inpl nd I O q := by
    rintro q ⟨a, ha, rfl⟩
    right
    refine ⟨hnd, δ + a, ?_, Ptr.add_add ..⟩
    rw [← hI2]
    exact Multiset.mem_map_of_mem _ ha
  refine ⟨fr1.trans fr2 ?_ ?_, ?_⟩
  · rintro q _ (hq | ⟨hn, hq⟩)
    · rw [← hT2, hO2] at hq; exact hw q hq
    · exact hw q hq
  · rintro q _ (hq | ⟨hn, hq⟩)
    · left; rw [hOuts_pairs hT]; exact hq
    · right; rw [hIns_pairs hT]; exact ⟨hn, hq⟩
  · intro dk hdk ab hab t ht
    rw [tag_append] at hdk
    obtain ⟨dk1, dk2, rfl, hd1, hd2⟩ := hdk.split
    set a := gOut (dk1.map fun e => (inpl1 .IS e.1, e.2)) with ha
    have ham : (a, gOut dk1) ∈ pairs (some szA) := by
      have := gIn_mem hd1
      rwa [map_fst_tag] at this
    have h3 := v2 dk2 hd2 (ab + (a, gOut dk1)) (pairs_append_mem.2 ⟨ab, hab, _, ham, rfl⟩) t ht
    rw [gOut_append]
    dsimp only
    rw [show gOut dk1 + gOut dk2 + ab.2 + h.B t = gOut dk2 + (ab + (a, gOut dk1)).2 + h.B t by simp; ring, h3]
    congr 1
    have X : ∀ o ∈ ins (some (dk2.map fun e => e.1.1)), ∑ i ∈ Finset.range h.na, h.c t i * ((st1.mem (I + (o + (ab + (a, gOut dk1)).1 + h.A i)) : ℝ) : ℂ) =
        gSum idftK dk1 fun o' => ∑ i ∈ Finset.range h.na, h.c t i * ((st.mem (I + (o' + o + ab.1 + h.A i)) : ℝ) : ℂ) := by
      intro o ho
      have pair : ∀ F : ℤ → ℝ, ∑ i ∈ Finset.range h.na, h.c t i * ((F (h.A i) : ℝ) : ℂ) =
          ∑ p ∈ Finset.range (n / 2 + 1), ((mult n p : ℂ) * star (ω n ^ (t * p))) * (⟨F ((p : ℤ) * cs), F (δ + (p : ℤ) * cs)⟩ : ℂ) := by
        intro F
        show ∑ i ∈ Finset.range (2 * (n / 2 + 1)), h.c t i * ((F (h.A i) : ℝ) : ℂ) = _
        generalize n / 2 + 1 = m
        induction m with
        | zero => simp
        | succ m ih =>
          rw [show 2 * (m + 1) = 2 * m + 1 + 1 by ring, Finset.sum_range_succ, Finset.sum_range_succ, ih, Finset.sum_range_succ, add_assoc]
          congr 1
          have b0 : h.A (2 * m) = (m : ℤ) * cs := by
            show zig δ cs (2 * m) = _; simp [zig]
          have b1 : h.A (2 * m + 1) = δ + (m : ℤ) * cs := by
            show zig δ cs (2 * m + 1) = _
            simp only [zig]; rw [show (2 * m + 1) % 2 = 1 by omega, show (2 * m + 1) / 2 = m by omega]; push_cast; ring
          have c0 : h.c t (2 * m) = (mult n m : ℂ) * star (ω n ^ (t * m)) := by
            show (mult n (2 * m / 2) : ℂ) * star (ω n ^ (t * (2 * m / 2))) * (if 2 * m % 2 = 0 then 1 else Complex.I) = _
            rw [show 2 * m / 2 = m by omega, if_pos (by omega), mul_one]
          have c1 : h.c t (2 * m + 1) = (mult n m : ℂ) * star (ω n ^ (t * m)) * Complex.I := by
            show (mult n ((2 * m + 1) / 2) : ℂ) * star (ω n ^ (t * ((2 * m + 1) / 2))) * (if (2 * m + 1) % 2 = 0 then 1 else Complex.I) = _
            rw [show (2 * m + 1) / 2 = m by omega, if_neg (by omega)]
          rw [b0, b1, c0, c1]
          have : (⟨F ((m : ℤ) * cs), F (δ + (m : ℤ) * cs)⟩ : ℂ) = ((F ((m : ℤ) * cs) : ℝ) : ℂ) + Complex.I * ((F (δ + (m : ℤ) * cs) : ℝ) : ℂ) := by
            apply Complex.ext <;> simp
          rw [this]; ring
      have l1 := pair fun x => st1.mem (I + (o + (ab + (a, gOut dk1)).1 + x))
      have l2 : ∀ o' : ℤ, _ := fun o' => pair fun x => st.mem (I + (o' + o + ab.1 + x))
      rw [l1]
      simp only [l2]
      rw [← gSum_lin dk1 (Finset.range (n / 2 + 1)) (fun p => (mult n p : ℂ) * star (ω n ^ (t * p)))
        (fun p o' => (⟨st.mem (I + (o' + o + ab.1 + (p : ℤ) * cs)), st.mem (I + (o' + o + ab.1 + (δ + (p : ℤ) * cs)))⟩ : ℂ))]
      refine Finset.sum_congr rfl fun p hp => ?_
      congr 1
      have h4 := v1 _ (by rw [tag_inplace]; exact hd1.inplace .IS) (ab.1 + (o + (p : ℤ) * cs), ab.1 + (o + (p : ℤ) * cs)) ?_
      rotate_left
      · rw [pairs_append_mem]
        refine ⟨(ab.1, ab.1), ?_, (o + (p : ℤ) * cs, o + (p : ℤ) * cs), ?_, rfl⟩
        · rw [pairs_copyInplace_IS, Multiset.mem_map]
          exact ⟨ab.1, mem_ins.2 ⟨ab.2, hab⟩, rfl⟩
        · rw [mem_pairs_append]
          have := pairs_copyInplace_IS (some szB)
          simp only [copyInplace, Option.map_some] at this
          refine ⟨(o, o), ?_, ((p : ℤ) * cs, (p : ℤ) * cs), mem_pairs1.2 ⟨p, Finset.mem_range.1 hp, rfl⟩, rfl⟩
          rw [this, Multiset.mem_map]
          refine ⟨o, ?_, rfl⟩
          have e := congrArg (List.map Prod.fst) hd2.1
          rw [map_fst_tag, List.map_map] at e
          rw [← e]; exact ho
      rw [← ha, gSum_IS, val_c'] at h4
      have h5 := congrArg cswap h4
      rw [gSum_cswap] at h5
      dsimp only [cswap] at h5
      simp only [val_c'] at h5
      have e1 : ∀ x : ℤ, I + δ + (-δ + x) = I + x := by intro x; rw [Ptr.add_add]; congr 1; ring
      have e2 : ∀ x : ℤ, I + δ + x = I + (δ + x) := by intro x; rw [Ptr.add_add]
      simp only [e1] at h5
      simp only [e2] at h5
      have e3 : ∀ o' : ℤ, o' + o + ab.1 + (p : ℤ) * cs = o' + (ab.1 + (o + (p : ℤ) * cs)) := fun o' => by ring
      have e4 : ∀ o' : ℤ, o' + o + ab.1 + (δ + (p : ℤ) * cs) = δ + (o' + (ab.1 + (o + (p : ℤ) * cs))) := fun o' => by ring
      simp only [e3, e4]
      rw [← h5]
      apply Complex.ext
      · dsimp only; congr 2; simp only [Prod.fst_add]; ring
      · dsimp only; congr 2; simp only [Prod.fst_add]; ring
    rw [show h.K = idftK from rfl, gSum_congr X, gSum_perm List.perm_append_comm, gSum_append]
    refine congrArg _ (funext fun o => congrArg _ (funext fun o' => ?_))
    rw [add_comm o o']

/-! ### the solver -/

omit [CLib] in
theorem halveLast_eq {sz : List Dim} (h : sz ≠ []) (k : InplaceKind) :
    Rdft2S.halveLast (sz.map (Dim.inplace k)) = sz.dropLast.map (Dim.inplace k) ++ [⟨(lastDim sz).n / 2 + 1, ((lastDim sz).inplace k).is, ((lastDim sz).inplace k).os⟩] := by
  obtain ⟨l, d, rfl⟩ := List.eq_nil_or_concat sz |>.resolve_left h
  simp [Rdft2S.halveLast, lastDim]

omit [CLib] in
theorem lastDim_drop {sz : List Dim} {r : ℕ} (h : r < sz.length) : lastDim (sz.drop r) = lastDim sz := by
  unfold lastDim; rw [List.getLast?_drop, if_neg (by omega)]

omit [CLib] in
theorem dropLast_split {sz : List Dim} {r : ℕ} (h : r < sz.length) : sz.dropLast = sz.take r ++ (sz.drop r).dropLast := by
  have h1 : sz = sz.take r ++ sz.drop r := (List.take_append_drop _ _).symm
  have h2 : sz.drop r ≠ [] := by
    intro e; have := congrArg List.length e; simp at this; omega
  conv_lhs => rw [h1]
  exact List.dropLast_append_of_ne_nil h2

theorem rankGeq2_2_sound (spltrnk : Int) (buddies : List Int) (taste : Taste) : (Rdft2S.rankGeq2 spltrnk buddies taste).Sound := by
  apply rdft2Solver_sound
  intro p fl hk
  obtain ⟨he, hap, hn, hp, hvv⟩ := kosher_rdft2 hk
  split
  rotate_left
  · exact good_nada
  rename_i hv0
  split
  · exact good_nada
  rename_i r hr
  split
  rotate_left
  · exact good_nada
  rename_i hcond
  obtain ⟨hlen, hdis, -⟩ := hcond
  set sz1 := p.sz.take (r + 1) with hsz1
  set sz2 := p.sz.drop (r + 1) with hsz2
  have hsz : p.sz = sz1 ++ sz2 := (List.take_append_drop _ _).symm
  have hne2 : sz2 ≠ [] := by
    intro e; have := congrArg List.length e; simp [hsz2] at this; omega
  have hlast : lastDim sz2 = lastDim p.sz := lastDim_drop hlen
  have hdl : p.sz.dropLast = sz1 ++ sz2.dropLast := dropLast_split hlen
  have hnn := hn
  rw [hsz, nonNeg_append] at hnn
  obtain ⟨v, hv⟩ := Option.isSome_iff_exists.1 hv0.1
  obtain ⟨hvn, hvp⟩ := hvv v hv
  have hT : pairs (append (some sz2.dropLast) (append (some v) (some sz1))) = pairs (append (some p.sz.dropLast) (some v)) := by
    rw [hdl]
    simp only [append]
    apply pairs_perm
    rw [List.append_assoc, ← List.append_assoc sz2.dropLast]
    exact List.perm_append_comm
  have hsub : ∀ d ∈ sz2.dropLast, d ∈ p.sz.dropLast := fun d hd => by rw [hdl]; simp [hd]
  have hsub1 : ∀ d ∈ sz1, d ∈ p.sz.dropLast := fun d hd => by rw [hdl]; simp [hd]
  dsimp only
  apply good_need
  · refine kosher_mkproblemRdft2 (kosher_rdft2_blk hk) hnn.2 (nonNegV_append (by rw [hv, nonNegV_some]; exact hvn) (nonNegV_some.2 hnn.1)) (hp.sub fun d hd => List.mem_of_mem_drop hd) ?_ ?_
    · intro h
      refine ⟨fun d hd => (he h).1 d (hsub d hd), fun l hl d hd => ?_⟩
      rw [hv] at hl
      obtain rfl := Option.some.inj hl
      rcases List.mem_append.1 hd with hd | hd
      · exact (he h).2 v hv d hd
      · exact (he h).1 d (hsub1 d hd)
    · intro hne
      have := hap hne
      rw [hv] at this ⊢
      rw [hlast]
      exact this.of_pairs hT
  intro c1 h1
  rw [modify_default] at h1
  have hH := sound_mkproblemRdft2 h1
  rw [hlast, hv] at hH
  have kd : ∀ k : InplaceKind, ∀ a b c d : Ptr, a = c → Kosher (mkproblemDft (sz1.map (Dim.inplace k)) (append (copyInplace k p.vecsz) (some (Rdft2S.halveLast (sz2.map (Dim.inplace k))))) a b c d) := by
    intro k a b c d hac
    refine kosher_mkproblemDft (hnn.1.inplace _) (nonNegV_append (NonNegV.inplace (by rw [hv, nonNegV_some]; exact hvn) _) (nonNegV_some.2 ?_))
      (Pos.inplace (hp.sub fun d hd => List.mem_of_mem_take hd) _) fun h => absurd hac h
    rw [halveLast_eq hne2, nonNeg_append]
    refine ⟨(hnn.2.sub fun d hd => List.mem_of_mem_dropLast hd).inplace _, ?_⟩
    have := NonNeg.inplace (l := [lastDim sz2]) (by
      intro d hd; rw [List.mem_singleton.1 hd]; exact lastDim_nonneg hnn.2) k
    intro d hd
    rw [List.mem_singleton.1 hd]
    exact this ((lastDim sz2).inplace k) (by simp)
  cases hkd : p.kind with
  | R2HC =>
    dsimp only
    rw [hkd] at hH
    apply good_need (kd .OS _ _ _ _ rfl)
    intro c2 h2
    rw [modify_default] at h2
    obtain ⟨hG2, _⟩ := sound_mkproblemDft h2
    apply good_ret
    refine soundRdft2 hv0.1 ?_
    rw [show decide (p.cr = p.cr) = true by simp, halveLast_eq hne2, hlast, hv] at hG2
    rw [hdl, hv, hkd]
    exact HOK_split_r2c (f1 := run2 .R2HC (p.r1 - p.r0) (p.ci - p.cr) c1.rdft2Apply) (f2 := fun I O => c2.dftApply I (I + (p.ci - p.cr)) O (O + (p.ci - p.cr))) hH hG2
  | HC2R =>
    dsimp only
    rw [hkd] at hH
    apply good_need (kd .IS _ _ _ _ rfl)
    intro c2 h2
    rw [modify_default] at h2
    obtain ⟨hG2, _⟩ := sound_mkproblemDft h2
    apply good_ret
    refine soundRdft2 hv0.1 ?_
    rw [show decide (p.ci = p.ci) = true by simp, halveLast_eq hne2, hlast, hv] at hG2
    rw [hdl, hv, hkd]
    have hd : (p.cr - p.ci : ℤ) = -(p.ci - p.cr : ℤ) := by
      show p.cr.off - p.ci.off = -(p.ci.off - p.cr.off); ring
    rw [hd] at hG2
    have hnd : fl.nd = false ∨ decide (p.r0 = p.cr) = true := by
      rcases hdis with ⟨_, h | h⟩ | h
      · rw [hkd] at h; exact absurd h (by decide)
      · exact Or.inl h
      · exact Or.inr (decide_eq_true h)
    refine (HOK_split_c2r (f1 := fun I O => c2.dftApply I (I + (-(p.ci - p.cr) : ℤ)) O (O + (-(p.ci - p.cr) : ℤ))) (f2 := run2 .HC2R (p.r1 - p.r0) (p.ci - p.cr) c1.rdft2Apply) hG2 hH hnd).congr ?_
    intro I O st
    have e : I + (p.ci - p.cr : ℤ) + (-(p.ci - p.cr) : ℤ) = I := by
      rw [Ptr.add_add, add_neg_cancel, ptr_add_zero]
    simp only [run2, e]

end FFTW
