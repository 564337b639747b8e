import Verif.Proofs.R2cMath
import Verif.Proofs.ApiR2r
import Verif.Model.ApiR2c

namespace FFTW.Api
open Tensor Spec DftS Planner RowMajor
open MapFlags (U32)

/-! ### the rows as boxes -/

section
variable {szc loops : List Dim} {h : Half}

theorem mem_rows_box {x : ℤ × ℤ} : x ∈ pairs (append (some szc) (some loops)) ↔ ∃ b j, Box (loops.map (·.n)) b ∧ Box (szc.map (·.n)) j ∧
    x = (dot (loops.map (·.is)) b + dot (szc.map (·.is)) j, dot (loops.map (·.os)) b + dot (szc.map (·.os)) j) := by
  rw [append, mem_pairs_box]
  constructor
  · rintro ⟨c, hc, e⟩
    rw [List.map_append, box_append] at hc
    obtain ⟨j, b, hj, hb, rfl⟩ := hc
    refine ⟨b, j, hb, hj, ?_⟩
    rw [e, List.map_append, List.map_append, dot_append (by rw [box_length hj]; simp), dot_append (by rw [box_length hj]; simp), add_comm, add_comm (dot (szc.map (·.os)) j)]
  · rintro ⟨b, j, hb, hj, rfl⟩
    refine ⟨j ++ b, ?_, ?_⟩
    · rw [List.map_append]; exact box_append.2 ⟨j, b, hj, hb, rfl⟩
    · rw [List.map_append, List.map_append, dot_append (by rw [box_length hj]; simp), dot_append (by rw [box_length hj]; simp), add_comm, add_comm (dot (szc.map (·.os)) j)]

theorem nodup_spread {F : Multiset ℤ} {l l' : List (ℕ × ℤ)} (hF : F.Nodup)
    (h : ∀ b j b' j' x x', Box (l'.map Prod.fst) b → Box (l.map Prod.fst) j → x ∈ F → Box (l'.map Prod.fst) b' → Box (l.map Prod.fst) j' → x' ∈ F →
      dot (l'.map Prod.snd) b + dot (l.map Prod.snd) j + x = dot (l'.map Prod.snd) b' + dot (l.map Prod.snd) j' + x' → b = b' ∧ j = j') :
    (spread F (offs (l ++ l'))).Nodup := by
  rw [offs_boxes, spread, Multiset.bind_map]
  rw [show ((boxes ((l ++ l').map Prod.fst)).bind fun a => F.map fun x => dot ((l ++ l').map Prod.snd) a + x) =
      ((boxes ((l ++ l').map Prod.fst)) ×ˢ F).map fun p => dot ((l ++ l').map Prod.snd) p.1 + p.2 by
    rw [SProd.sprod, Multiset.instSProd]; simp only [Multiset.product, Multiset.map_bind, Multiset.map_map, Function.comp_def]]
  refine (Multiset.Nodup.product (nodup_boxes _) hF).map_on ?_
  rintro ⟨c, x⟩ hc ⟨c', x'⟩ hc' he
  rw [Multiset.mem_product] at hc hc'
  obtain ⟨hc, hx⟩ := hc
  obtain ⟨hc', hx'⟩ := hc'
  dsimp only at *
  rw [mem_boxes, List.map_append, box_append] at hc hc'
  obtain ⟨j, b, hj, hb, rfl⟩ := hc
  obtain ⟨j', b', hj', hb', rfl⟩ := hc'
  rw [List.map_append, dot_append (by rw [box_length hj]; simp), dot_append (by rw [box_length hj']; simp)] at he
  obtain ⟨rfl, rfl⟩ := h b j b' j' x x' hb hj hx hb' hj' hx' (by linarith)
  rw [add_left_cancel he]

theorem nodup_half {N : ℕ} {A : ℕ → ℤ} {l l' : List (ℕ × ℤ)}
    (h : ∀ b j i b' j' i', Box (l'.map Prod.fst) b → Box (l.map Prod.fst) j → i < N → Box (l'.map Prod.fst) b' → Box (l.map Prod.fst) j' → i' < N →
      dot (l'.map Prod.snd) b + dot (l.map Prod.snd) j + A i = dot (l'.map Prod.snd) b' + dot (l.map Prod.snd) j' + A i' → b = b' ∧ j = j' ∧ i = i') :
    (spread ((Multiset.range N).map A) (offs (l ++ l'))).Nodup := by
  rw [offs_boxes, spread, Multiset.bind_map]
  rw [show ((boxes ((l ++ l').map Prod.fst)).bind fun a => ((Multiset.range N).map A).map fun x => dot ((l ++ l').map Prod.snd) a + x) =
      ((boxes ((l ++ l').map Prod.fst)) ×ˢ (Multiset.range N)).map fun p => dot ((l ++ l').map Prod.snd) p.1 + A p.2 by
    rw [SProd.sprod, Multiset.instSProd]; simp only [Multiset.product, Multiset.map_bind, Multiset.map_map, Function.comp_def]]
  refine (Multiset.Nodup.product (nodup_boxes _) (Multiset.nodup_range N)).map_on ?_
  rintro ⟨c, x⟩ hc ⟨c', x'⟩ hc' he
  rw [Multiset.mem_product] at hc hc'
  obtain ⟨hc, hx⟩ := hc
  obtain ⟨hc', hx'⟩ := hc'
  dsimp only at *
  rw [mem_boxes, List.map_append, box_append] at hc hc'
  obtain ⟨j, b, hj, hb, rfl⟩ := hc
  obtain ⟨j', b', hj', hb', rfl⟩ := hc'
  rw [List.map_append, dot_append (by rw [box_length hj]; simp), dot_append (by rw [box_length hj']; simp)] at he
  obtain ⟨rfl, rfl, rfl⟩ := h b j x b' j' x' hb hj (Multiset.mem_range.1 hx) hb' hj' (Multiset.mem_range.1 hx') (by linarith)
  rfl

/-- well-formedness of the problem, from the positions of the elements -/
theorem hwf_box {inpl nd : Bool} {ri ro : List ℕ → List ℕ → ℤ} (hri : ri = fun b j => dot (loops.map (·.is)) b + dot (szc.map (·.is)) j)
    (hro : ro = fun b j => dot (loops.map (·.os)) b + dot (szc.map (·.os)) j)
    (hB : ∀ b j i b' j' i', Box (loops.map (·.n)) b → Box (szc.map (·.n)) j → i < h.nb → Box (loops.map (·.n)) b' → Box (szc.map (·.n)) j' → i' < h.nb →
      ro b j + h.B i = ro b' j' + h.B i' → b = b' ∧ j = j' ∧ i = i')
    (hA : nd = false ∨ inpl = true → ∀ b j i b' j' i', Box (loops.map (·.n)) b → Box (szc.map (·.n)) j → i < h.na → Box (loops.map (·.n)) b' → Box (szc.map (·.n)) j' → i' < h.na →
      ri b j + h.A i = ri b' j' + h.A i' → b = b' ∧ j = j' ∧ i = i')
    (he : inpl = true → ∀ b j, Box (loops.map (·.n)) b → Box (szc.map (·.n)) j → ri b j = ro b j)
    (hrow : inpl = true → ∀ b j b' j' x x', Box (loops.map (·.n)) b → Box (szc.map (·.n)) j → Box (loops.map (·.n)) b' → Box (szc.map (·.n)) j' →
      h.foot x → h.foot x' → ri b j + x = ri b' j' + x' → b = b' ∧ j = j') :
    HWF h szc (some loops) inpl nd := by
  subst hri hro
  refine ⟨?_, fun hn => ?_, fun hn ab hab => ?_, fun hn => ?_⟩
  · rw [append, hOuts]; simp only [outs, List.map_append]
    refine nodup_half ?_
    simp only [List.map_map, Function.comp_def]; exact hB
  · rw [append, hIns]; simp only [ins, List.map_append]
    refine nodup_half ?_
    simp only [List.map_map, Function.comp_def]; exact hA hn
  · obtain ⟨b, j, hb, hj, rfl⟩ := mem_rows_box.1 hab
    exact he hn b j hb hj
  · rw [append, hAll]; simp only [ins, List.map_append]
    refine nodup_spread (Multiset.nodup_dedup _) ?_
    simp only [List.map_map, Function.comp_def]
    have hf : ∀ x, x ∈ ((Multiset.range h.na).map h.A + (Multiset.range h.nb).map h.B).dedup → h.foot x := by
      intro x hx
      rw [Multiset.mem_dedup, Multiset.mem_add, Multiset.mem_map, Multiset.mem_map] at hx
      rcases hx with ⟨i, hi, rfl⟩ | ⟨i, hi, rfl⟩
      · exact Or.inl ⟨i, Multiset.mem_range.1 hi, rfl⟩
      · exact Or.inr ⟨i, Multiset.mem_range.1 hi, rfl⟩
    exact fun b j b' j' x x' hb hj hx hb' hj' hx' he => hrow hn b j b' j' x x' hb hj hb' hj' (hf x hx) (hf x' hx') he
end

/-! ### canonicalisation of in-place problems -/

variable [CLib]

theorem compressContiguous_mem' {vec : Tensor} {l : List Dim} (h : compressContiguous vec = some l) {d : Dim} (hd : d ∈ l) :
    ∃ l0, vec = some l0 ∧ ∃ e ∈ l0, e.n ≠ 1 ∧ d.is = e.is ∧ d.os = e.os := by
  cases vec with
  | none => simp [compressContiguous] at h
  | some l0 =>
    refine ⟨l0, rfl, ?_⟩
    have key : ∀ e ∈ reallyCompress l0, e.n ≠ 1 := fun e he => by simpa [reallyCompress] using (List.mem_filter.1 he).2
    unfold compressContiguous at h
    simp only at h
    split at h
    · simp at h
    · split at h
      · obtain rfl := Option.some.inj h
        exact ⟨d, List.mem_of_mem_filter hd, key d hd, rfl, rfl⟩
      · have hp := CLib.perm compareByIstride (reallyCompress l0)
        split at h
        · obtain rfl := Option.some.inj h; simp at hd
        · rename_i a rest hq
          obtain rfl := Option.some.inj h
          rw [hq] at hp
          have := (canonicalize_perm _).mem_iff.1 hd
          obtain ⟨e, he, h1, h2⟩ := mergeLoop_mem _ _ _ d this
          have : e ∈ a :: rest := by simpa using he
          have := hp.mem_iff.1 this
          exact ⟨e, List.mem_of_mem_filter this, key e this, h1, h2⟩

theorem kosher_rdft2_api {sz : List Dim} {vec : Tensor} {r0 r1 cr ci : Ptr} {k : R2Kind} (hb : r1.blk = r0.blk ∧ ci.blk = cr.blk) (h1 : FFTW.NonNeg sz) (h2 : NonNegV vec) (h0 : Pos sz)
    (he : r0 = cr → (∀ d ∈ sz.dropLast, d.n ≠ 1 → d.is = d.os) ∧ ∀ l, vec = some l → ∀ d ∈ l, d.n ≠ 1 → d.is = d.os)
    (ha : r0 ≠ cr → HApart (half2 k (lastDim sz) (r1 - r0) (ci - cr)) (append (some sz.dropLast) vec) (in2 k r0 cr) (out2 k r0 cr)) :
    Kosher (mkproblemRdft2 sz vec r0 r1 cr ci k) := by
  unfold mkproblemRdft2
  split
  · trivial
  · simp only [Kosher, Kosher2, I_eq, O_eq, half_eq, rdft2Sz_dropLast]
    refine ⟨hb, ?_, ?_, ?_, ?_, ?_⟩
    · intro heq
      obtain ⟨e1, e2⟩ := he heq
      refine ⟨fun d hd => e1 d (compress_sub hd) ?_, fun l hl d hd => ?_⟩
      · have := compress_big (h0.sub fun d hd => List.mem_of_mem_dropLast hd) hd
        omega
      obtain ⟨l0, hl0, e, hem, hn, e3, e4⟩ := compressContiguous_mem' hl hd
      rw [e3, e4]; exact e2 l0 hl0 e hem hn
    · intro hne
      refine ((ha hne).same (rdft2Sz_same k sz _ _)).of_pairs ?_
      rw [pairs_append_compress]
    · intro d hd
      have hm := List.mem_of_mem_dropLast (compress_sub hd)
      have := h1 d hm
      exact ⟨this.1, this.2, compress_big (h0.sub fun d hd => List.mem_of_mem_dropLast hd) hd⟩
    · rcases rdft2Sz_last sz with h | ⟨h, h'⟩
      · rw [h]; exact ⟨(lastDim_nonneg h1).1, (lastDim_nonneg h1).2, lastDim_pos h0⟩
      · rw [h]; simp
    · intro l hl d hd
      obtain ⟨l0, hl0, e, he, e1, e2⟩ := compressContiguous_mem hl hd
      rw [e1, e2]; exact ⟨(h2 l0 hl0 e he).1, (h2 l0 hl0 e he).2, compressContiguous_big hl d hd⟩

/-! ### three pointers -/

/-- the last dimension with its real stride doubled -/
def dbl (k : R2Kind) (d : Dim) : Dim :=
  match k with
  | .R2HC => ⟨d.n, d.is * 2, d.os⟩
  | .HC2R => ⟨d.n, d.is, d.os * 2⟩
/-- the real stride -/
def rst (k : R2Kind) (d : Dim) : ℤ :=
  match k with
  | .R2HC => d.is
  | .HC2R => d.os

theorem three_pointers (sz : List Dim) (vec : Tensor) (r0 cr ci : Ptr) (k : R2Kind) (h1 : FFTW.NonNeg sz) (h0 : Pos sz) :
    ∃ sz' r1, mkproblemRdft2_3pointers sz vec r0 cr ci k = mkproblemRdft2 sz' vec r0 r1 cr ci k ∧ sz'.dropLast = sz.dropLast ∧
      r1 = r0 + rst k (lastDim sz) ∧ lastDim sz' = dbl k (lastDim sz) ∧ FFTW.NonNeg sz' ∧ Pos sz' := by
  unfold mkproblemRdft2_3pointers
  cases hl : sz.getLast? with
  | none =>
    refine ⟨sz, r0, rfl, rfl, ?_, ?_, h1, h0⟩
    · rw [lastDim, hl]; cases k <;> exact (Ptr.ext rfl (show r0.off = r0.off + 0 by ring))
    · rw [lastDim, hl]; cases k <;> rfl
  | some d =>
    have hd : d ∈ sz := List.mem_of_getLast? hl
    have e1 : lastDim sz = d := by rw [lastDim, hl]; rfl
    have hn : ∀ d' : Dim, 0 ≤ d'.is ∧ 0 ≤ d'.os → FFTW.NonNeg (sz.dropLast ++ [d']) := by
      intro d' hd' e he
      rcases List.mem_append.1 he with he | he
      · exact h1 e (List.mem_of_mem_dropLast he)
      · rw [List.mem_singleton.1 he]; exact hd'
    have hp : ∀ d' : Dim, d'.n = d.n → Pos (sz.dropLast ++ [d']) := by
      intro d' hd' e he
      rcases List.mem_append.1 he with he | he
      · exact h0 e (List.mem_of_mem_dropLast he)
      · rw [List.mem_singleton.1 he, hd']; exact h0 d hd
    have hnn := h1 d hd
    cases k with
    | R2HC => exact ⟨_, _, rfl, by simp, by rw [e1]; rfl, by simp [lastDim, dbl, hl], hn _ ⟨by show 0 ≤ d.is * 2; omega, hnn.2⟩, hp _ rfl⟩
    | HC2R => exact ⟨_, _, rfl, by simp, by rw [e1]; rfl, by simp [lastDim, dbl, hl], hn _ ⟨hnn.1, by show 0 ≤ d.os * 2; omega⟩, hp _ rfl⟩

theorem realStep_mk {sz : List Dim} {vec : Tensor} {r0 r1 cr ci : Ptr} {k : R2Kind} {nd : Bool} {pl : Plan}
    (h : Sound nd (mkproblemRdft2 sz vec r0 r1 cr ci k) pl) : realStep (mkproblemRdft2 sz vec r0 r1 cr ci k) = r1 - r0 ∧
      ∀ sg, execute ⟨pl, mkproblemRdft2 sz vec r0 r1 cr ci k, sg⟩ = pl.rdft2Apply r0 r1 cr ci := by
  unfold mkproblemRdft2 at *
  split at h
  · exact absurd h (by cases pl <;> exact id)
  · rename_i hc
    rw [if_neg hc]
    exact ⟨rfl, fun _ => rfl⟩

/-! ### positions in memory -/

/-- the complex stride -/
def cst (k : R2Kind) (d : Dim) : ℤ :=
  match k with
  | .R2HC => d.os
  | .HC2R => d.is

/-- a complex array whose elements are `c` apart, imaginary parts `δ` from the real parts -/
def carr (C : Ptr) (c δ : ℤ) : CArr := ⟨fun x => C + c * x, fun x => C + (c * x + δ)⟩

/-- the dimensions of a problem put the elements where the batch says -/
structure Geo (B : RBatch) (k : R2Kind) (c : ℤ) (sz loops : List Dim) : Prop where
  n : B.n = sz.dropLast.map (·.n)
  m : B.m = (lastDim sz).n
  v : B.v = loops.map (·.n)
  real : ∀ b j i, Box B.v b → Box B.n j → i < B.m →
    B.real b j i = dot (loops.map (rst k)) b + dot (sz.dropLast.map (rst k)) j + rst k (lastDim sz) * i
  cplx : ∀ b j p, Box B.v b → Box B.n j → p ≤ B.m / 2 →
    c * B.cplx b j p = dot (loops.map (cst k)) b + dot (sz.dropLast.map (cst k)) j + cst k (lastDim sz) * p
  nonneg : FFTW.NonNeg sz
  nonnegV : FFTW.NonNeg loops
  pos : Pos sz
  cpos : 0 < c

/-- the user's promises, by kind -/
structure R2Ok (k : R2Kind) (B : RBatch) (destroy : Prop) (r : Ptr) (A : CArr) : Prop where
  real : k = .HC2R ∨ destroy ∨ r = A.re 0 → B.RealInj
  cplx : k = .R2HC ∨ destroy ∨ r = A.re 0 → B.CplxInj ∧ A.PartsApart B.Cplx
  arr : B.Arranged r A

omit [CLib] in
theorem carr_zero (C : Ptr) (c δ : ℤ) : (carr C c δ).re 0 = C := Ptr.ext rfl (by show C.off + c * 0 = C.off; ring)

section
variable {B : RBatch} {k : R2Kind} {c δ : ℤ} {sz loops : List Dim}

omit [CLib] in
theorem Geo.mpos (g : Geo B k c sz loops) : 0 < B.m := by rw [g.m]; exact lastDim_pos g.pos

omit [CLib] in
/-- real numbers of a complex row -/
theorem Geo.zig (g : Geo B k c sz loops) {b j : List ℕ} (hb : Box B.v b) (hj : Box B.n j) {t : ℕ} (ht : t < 2 * (B.m / 2 + 1)) :
    dot (loops.map (cst k)) b + dot (sz.dropLast.map (cst k)) j + Spec.zig δ (cst k (lastDim sz)) t = c * B.cplx b j (t / 2) + ((t % 2 : ℕ) : ℤ) * δ := by
  rw [g.cplx b j (t / 2) hb hj (by omega), Spec.zig]; push_cast; ring

omit [CLib] in
theorem Geo.zigR (g : Geo B k c sz loops) {b j : List ℕ} (hb : Box B.v b) (hj : Box B.n j) {i : ℕ} (hi : i < B.m) :
    dot (loops.map (rst k)) b + dot (sz.dropLast.map (rst k)) j + Spec.zig (rst k (lastDim sz)) (rst k (lastDim sz) * 2) i = B.real b j i := by
  rw [g.real b j i hb hj hi, mul_comm _ (2 : ℤ), zig_double]; ring

omit [CLib] in
theorem Geo.injC (g : Geo B k c sz loops) {C : Ptr} (hi : B.CplxInj) (hp : (carr C c δ).PartsApart B.Cplx) {b j b' j' : List ℕ} {t t' : ℕ}
    (hb : Box B.v b) (hj : Box B.n j) (ht : t < 2 * (B.m / 2 + 1)) (hb' : Box B.v b') (hj' : Box B.n j') (ht' : t' < 2 * (B.m / 2 + 1))
    (he : c * B.cplx b j (t / 2) + ((t % 2 : ℕ) : ℤ) * δ = c * B.cplx b' j' (t' / 2) + ((t' % 2 : ℕ) : ℤ) * δ) : b = b' ∧ j = j' ∧ t = t' := by
  have h1 : B.Cplx (B.cplx b j (t / 2)) := ⟨b, j, t / 2, hb, hj, by omega, rfl⟩
  have h2 : B.Cplx (B.cplx b' j' (t' / 2)) := ⟨b', j', t' / 2, hb', hj', by omega, rfl⟩
  have same : c * B.cplx b j (t / 2) = c * B.cplx b' j' (t' / 2) → b = b' ∧ j = j' ∧ t / 2 = t' / 2 := fun h =>
    hi b j _ b' j' _ hb hj (by omega) hb' hj' (by omega) (mul_left_cancel₀ g.cpos.ne' h)
  rcases Nat.mod_two_eq_zero_or_one t with e | e <;> rcases Nat.mod_two_eq_zero_or_one t' with e' | e' <;> rw [e, e'] at he
  · obtain ⟨a1, a2, a3⟩ := same (by simpa using he)
    exact ⟨a1, a2, by omega⟩
  · refine absurd ?_ (hp _ _ h1 h2)
    exact Ptr.add_inj.2 (by push_cast at he; linarith)
  · refine absurd ?_ (hp _ _ h2 h1)
    exact Ptr.add_inj.2 (by push_cast at he; linarith)
  · obtain ⟨a1, a2, a3⟩ := same (by simpa using he)
    exact ⟨a1, a2, by omega⟩

omit [CLib] in
/-- memory of a complex row -/
theorem Geo.memC (C : Ptr) {b j : List ℕ} {t : ℕ} (ht : t < 2 * (B.m / 2 + 1)) :
    ∃ p, p ≤ B.m / 2 ∧ (C + (c * B.cplx b j (t / 2) + ((t % 2 : ℕ) : ℤ) * δ) = (carr C c δ).re (B.cplx b j p) ∨
      C + (c * B.cplx b j (t / 2) + ((t % 2 : ℕ) : ℤ) * δ) = (carr C c δ).im (B.cplx b j p)) := by
  refine ⟨t / 2, by omega, ?_⟩
  rcases Nat.mod_two_eq_zero_or_one t with e | e <;> rw [e]
  · left; simp [carr]
  · right; simp [carr]

omit [CLib] in
/-- equal strides of in-place problems -/
theorem Geo.strides (g : Geo B k c sz loops) {r : Ptr} (hi : B.InPlace r (carr r c δ)) :
    (∀ d ∈ sz.dropLast, d.n ≠ 1 → d.is = d.os) ∧ (∀ d ∈ loops, d.n ≠ 1 → d.is = d.os) ∧
    ∀ b j, Box B.v b → Box B.n j → dot (loops.map (rst k)) b + dot (sz.dropLast.map (rst k)) j = dot (loops.map (cst k)) b + dot (sz.dropLast.map (cst k)) j := by
  have key : ∀ b j, Box B.v b → Box B.n j → dot (loops.map (rst k)) b + dot (sz.dropLast.map (rst k)) j = dot (loops.map (cst k)) b + dot (sz.dropLast.map (cst k)) j := by
    intro b j hb hj
    have h1 := hi.start b j hb hj
    have h2 := g.real b j 0 hb hj g.mpos
    have h3 := g.cplx b j 0 hb hj (Nat.zero_le _)
    have h4 : B.real b j 0 = c * B.cplx b j 0 := Ptr.add_inj.1 h1
    rw [h2, h3] at h4
    simpa using h4
  have hz : Box B.n (B.n.map fun _ => 0) := box_zero (by
    intro x hx; rw [g.n] at hx; obtain ⟨d, hd, rfl⟩ := List.mem_map.1 hx; exact g.pos d (List.mem_of_mem_dropLast hd))
  have hz' : Box B.v (B.v.map fun _ => 0) := box_zero hi.pos
  have hsw : ∀ l : List Dim, (∀ j, Box (l.map (·.n)) j → dot (l.map (rst k)) j = dot (l.map (cst k)) j) → ∀ j, Box (l.map (·.n)) j → dot (l.map (·.is)) j = dot (l.map (·.os)) j := by
    intro l hl j hj
    cases k with
    | R2HC => exact hl j hj
    | HC2R => exact (hl j hj).symm
  refine ⟨stride_eq (fun d hd => g.pos d (List.mem_of_mem_dropLast hd)) (hsw _ fun j hj => ?_), stride_eq (fun d hd => hi.pos _ ?_) (hsw _ fun j hj => ?_), key⟩
  · have := key _ j hz' (by rw [g.n]; exact hj)
    rwa [dot_zero, dot_zero, zero_add, zero_add] at this
  · rw [g.v]; exact List.mem_map_of_mem (f := fun d : Dim => d.n) hd
  · have := key j _ (by rw [g.v]; exact hj) hz
    rwa [dot_zero, dot_zero, add_zero, add_zero] at this

/-- the rows of the problem -/
noncomputable abbrev apiHalf (k : R2Kind) (sz : List Dim) (δ : ℤ) : Half := half2 k (dbl k (lastDim sz)) (rst k (lastDim sz)) δ

omit [CLib] in
theorem Geo.dotR (l : List Dim) (j : List ℕ) : dot (l.map (rst .R2HC)) j = dot (l.map (·.is)) j ∧ dot (l.map (rst .HC2R)) j = dot (l.map (·.os)) j := ⟨rfl, rfl⟩
omit [CLib] in
theorem Geo.dotC (l : List Dim) (j : List ℕ) : dot (l.map (cst .R2HC)) j = dot (l.map (·.os)) j ∧ dot (l.map (cst .HC2R)) j = dot (l.map (·.is)) j := ⟨rfl, rfl⟩

omit [CLib] in
/-- memory of the real side -/
theorem Geo.mem_real (g : Geo B k c sz loops) {r q : Ptr} :
    (∃ a, (match k with | .R2HC => a ∈ hIns (apiHalf k sz δ) (append (some sz.dropLast) (some loops)) | .HC2R => a ∈ hOuts (apiHalf k sz δ) (append (some sz.dropLast) (some loops))) ∧
      q = r + a) ↔ RMem r B.Real q := by
  have hm := g.m
  cases k with
  | R2HC =>
    simp only [mem_hIns]
    constructor
    · rintro ⟨a, ⟨ab, hab, i, hi, rfl⟩, rfl⟩
      obtain ⟨b, j, hb, hj, rfl⟩ := mem_rows_box.1 hab
      have hi' : i < B.m := by rw [hm]; exact hi
      rw [← g.v] at hb; rw [← g.n] at hj
      exact ⟨_, ⟨b, j, i, hb, hj, hi', rfl⟩, by rw [← g.zigR hb hj hi']; rfl⟩
    · rintro ⟨x, ⟨b, j, i, hb, hj, hi, rfl⟩, rfl⟩
      refine ⟨_, ⟨_, mem_rows_box.2 ⟨b, j, by rw [← g.v]; exact hb, by rw [← g.n]; exact hj, rfl⟩, i, by rw [hm] at hi; exact hi, rfl⟩, ?_⟩
      rw [← g.zigR hb hj hi]; rfl
  | HC2R =>
    simp only [mem_hOuts]
    constructor
    · rintro ⟨a, ⟨ab, hab, i, hi, rfl⟩, rfl⟩
      obtain ⟨b, j, hb, hj, rfl⟩ := mem_rows_box.1 hab
      have hi' : i < B.m := by rw [hm]; exact hi
      rw [← g.v] at hb; rw [← g.n] at hj
      exact ⟨_, ⟨b, j, i, hb, hj, hi', rfl⟩, by rw [← g.zigR hb hj hi']; rfl⟩
    · rintro ⟨x, ⟨b, j, i, hb, hj, hi, rfl⟩, rfl⟩
      refine ⟨_, ⟨_, mem_rows_box.2 ⟨b, j, by rw [← g.v]; exact hb, by rw [← g.n]; exact hj, rfl⟩, i, by rw [hm] at hi; exact hi, rfl⟩, ?_⟩
      rw [← g.zigR hb hj hi]; rfl

omit [CLib] in
/-- memory of the complex side -/
theorem Geo.mem_cplx (g : Geo B k c sz loops) {C q : Ptr} :
    (∃ a, (match k with | .R2HC => a ∈ hOuts (apiHalf k sz δ) (append (some sz.dropLast) (some loops)) | .HC2R => a ∈ hIns (apiHalf k sz δ) (append (some sz.dropLast) (some loops))) ∧
      q = C + a) ↔ (carr C c δ).Mem B.Cplx q := by
  have hm := g.m
  have back : ∀ b j p, Box B.v b → Box B.n j → p ≤ B.m / 2 → (q = (carr C c δ).re (B.cplx b j p) ∨ q = (carr C c δ).im (B.cplx b j p)) →
      ∃ t, t < 2 * (B.m / 2 + 1) ∧ q = C + (dot (loops.map (cst k)) b + dot (sz.dropLast.map (cst k)) j + Spec.zig δ (cst k (lastDim sz)) t) := by
    rintro b j p hb hj hp (rfl | rfl)
    · refine ⟨2 * p, by omega, ?_⟩
      rw [g.zig hb hj (by omega), show 2 * p / 2 = p by omega, show 2 * p % 2 = 0 by omega]; simp [carr]
    · refine ⟨2 * p + 1, by omega, ?_⟩
      rw [g.zig hb hj (by omega), show (2 * p + 1) / 2 = p by omega, show (2 * p + 1) % 2 = 1 by omega]; simp [carr]
  have forth : ∀ b j t, Box B.v b → Box B.n j → t < 2 * (B.m / 2 + 1) →
      (carr C c δ).Mem B.Cplx (C + (dot (loops.map (cst k)) b + dot (sz.dropLast.map (cst k)) j + Spec.zig δ (cst k (lastDim sz)) t)) := by
    intro b j t hb hj ht
    obtain ⟨p, hp, he⟩ := Geo.memC (B := B) (c := c) (δ := δ) C (b := b) (j := j) ht
    rw [g.zig hb hj ht]
    exact ⟨_, ⟨b, j, p, hb, hj, hp, rfl⟩, he⟩
  cases k with
  | R2HC =>
    simp only [mem_hOuts]
    constructor
    · rintro ⟨a, ⟨ab, hab, i, hi, rfl⟩, rfl⟩
      obtain ⟨b, j, hb, hj, rfl⟩ := mem_rows_box.1 hab
      rw [← g.v] at hb; rw [← g.n] at hj
      exact forth b j i hb hj (by rw [hm]; exact hi)
    · rintro ⟨x, ⟨b, j, p, hb, hj, hp, rfl⟩, he⟩
      obtain ⟨t, ht, rfl⟩ := back b j p hb hj hp he
      exact ⟨_, ⟨_, mem_rows_box.2 ⟨b, j, by rw [← g.v]; exact hb, by rw [← g.n]; exact hj, rfl⟩, t, by rw [hm] at ht; exact ht, rfl⟩, rfl⟩
  | HC2R =>
    simp only [mem_hIns]
    constructor
    · rintro ⟨a, ⟨ab, hab, i, hi, rfl⟩, rfl⟩
      obtain ⟨b, j, hb, hj, rfl⟩ := mem_rows_box.1 hab
      rw [← g.v] at hb; rw [← g.n] at hj
      exact forth b j i hb hj (by rw [hm]; exact hi)
    · rintro ⟨x, ⟨b, j, p, hb, hj, hp, rfl⟩, he⟩
      obtain ⟨t, ht, rfl⟩ := back b j p hb hj hp he
      exact ⟨_, ⟨_, mem_rows_box.2 ⟨b, j, by rw [← g.v]; exact hb, by rw [← g.n]; exact hj, rfl⟩, t, by rw [hm] at ht; exact ht, rfl⟩, rfl⟩

omit [CLib] in
theorem Geo.apart (g : Geo B k c sz loops) {r C : Ptr} (ha : B.Apart r (carr C c δ)) :
    HApart (apiHalf k sz δ) (append (some sz.dropLast) (some loops)) (in2 k r C) (out2 k r C) := by
  intro a h1 b h2 he
  cases k with
  | R2HC => exact ha _ ((g.mem_real (δ := δ)).1 ⟨a, h1, rfl⟩) ((g.mem_cplx).1 ⟨b, h2, he⟩)
  | HC2R => exact ha _ ((g.mem_real (δ := δ)).1 ⟨b, h2, rfl⟩) ((g.mem_cplx).1 ⟨a, h1, he.symm⟩)

omit [CLib] in
/-- well-formedness -/
theorem Geo.wf (g : Geo B k c sz loops) {destroy : Prop} {r C : Ptr} (ok : R2Ok k B destroy r (carr C c δ)) {nd : Bool} (hd : nd = false → destroy) :
    HWF (apiHalf k sz δ) sz.dropLast (some loops) (decide (r = C)) nd := by
  have hC := carr_zero C c δ
  have hm := g.m
  have real : (k = .HC2R ∨ nd = false ∨ decide (r = C) = true) → ∀ b j i b' j' i', Box B.v b → Box B.n j → i < B.m → Box B.v b' → Box B.n j' → i' < B.m →
      dot (loops.map (rst k)) b + dot (sz.dropLast.map (rst k)) j + Spec.zig (rst k (lastDim sz)) (rst k (lastDim sz) * 2) i =
      dot (loops.map (rst k)) b' + dot (sz.dropLast.map (rst k)) j' + Spec.zig (rst k (lastDim sz)) (rst k (lastDim sz) * 2) i' → b = b' ∧ j = j' ∧ i = i' := by
    intro h b j i b' j' i' hb hj hi hb' hj' hi' he
    rw [g.zigR hb hj hi, g.zigR hb' hj' hi'] at he
    refine ok.real ?_ b j i b' j' i' hb hj hi hb' hj' hi' he
    rcases h with h | h | h
    · exact Or.inl h
    · exact Or.inr (Or.inl (hd h))
    · exact Or.inr (Or.inr (by rw [hC]; exact of_decide_eq_true h))
  have cplx : (k = .R2HC ∨ nd = false ∨ decide (r = C) = true) → ∀ b j i b' j' i', Box B.v b → Box B.n j → i < 2 * (B.m / 2 + 1) → Box B.v b' → Box B.n j' → i' < 2 * (B.m / 2 + 1) →
      dot (loops.map (cst k)) b + dot (sz.dropLast.map (cst k)) j + Spec.zig δ (cst k (lastDim sz)) i =
      dot (loops.map (cst k)) b' + dot (sz.dropLast.map (cst k)) j' + Spec.zig δ (cst k (lastDim sz)) i' → b = b' ∧ j = j' ∧ i = i' := by
    intro h b j i b' j' i' hb hj hi hb' hj' hi' he
    rw [g.zig hb hj hi, g.zig hb' hj' hi'] at he
    have := ok.cplx (by
      rcases h with h | h | h
      · exact Or.inl h
      · exact Or.inr (Or.inl (hd h))
      · exact Or.inr (Or.inr (by rw [hC]; exact of_decide_eq_true h)))
    exact g.injC this.1 this.2 hb hj hi hb' hj' hi' he
  have inpl : decide (r = C) = true → B.InPlace r (carr r c δ) := by
    intro h
    have h := of_decide_eq_true h
    rcases ok.arr with ⟨_, h2⟩ | ⟨h2, _⟩
    · rw [h] at h2 ⊢; exact h2
    · exact absurd (by rw [hC]; exact h) h2
  have hrow : decide (r = C) = true → ∀ b j b' j' x x', Box B.v b → Box B.n j → Box B.v b' → Box B.n j' →
      (∃ i, i < B.m ∧ x = Spec.zig (rst k (lastDim sz)) (rst k (lastDim sz) * 2) i) ∨ (∃ t, t < 2 * (B.m / 2 + 1) ∧ x = Spec.zig δ (cst k (lastDim sz)) t) →
      (∃ i, i < B.m ∧ x' = Spec.zig (rst k (lastDim sz)) (rst k (lastDim sz) * 2) i) ∨ (∃ t, t < 2 * (B.m / 2 + 1) ∧ x' = Spec.zig δ (cst k (lastDim sz)) t) →
      dot (loops.map (rst k)) b + dot (sz.dropLast.map (rst k)) j + x = dot (loops.map (rst k)) b' + dot (sz.dropLast.map (rst k)) j' + x' → b = b' ∧ j = j' := by
    intro h b j b' j' x x' hb hj hb' hj' hx hx' he
    have hi := inpl h
    obtain ⟨_, _, hst⟩ := g.strides hi
    have row : ∀ b j x, Box B.v b → Box B.n j →
        (∃ i, i < B.m ∧ x = Spec.zig (rst k (lastDim sz)) (rst k (lastDim sz) * 2) i) ∨ (∃ t, t < 2 * (B.m / 2 + 1) ∧ x = Spec.zig δ (cst k (lastDim sz)) t) →
        B.Row r (carr r c δ) b j (r + (dot (loops.map (rst k)) b + dot (sz.dropLast.map (rst k)) j + x)) := by
      rintro b j x hb hj (⟨i, hi, rfl⟩ | ⟨t, ht, rfl⟩)
      · rw [g.zigR hb hj hi]; exact Or.inl ⟨_, ⟨i, hi, rfl⟩, rfl⟩
      · rw [hst b j hb hj, g.zig hb hj ht]
        obtain ⟨p, hp, he⟩ := Geo.memC (B := B) (c := c) (δ := δ) r (b := b) (j := j) ht
        exact Or.inr ⟨_, ⟨p, hp, rfl⟩, he⟩
    have r1 := row b j x hb hj hx
    rw [he] at r1
    exact hi.rows b j b' j' _ hb hj hb' hj' r1 (row b' j' x' hb' hj' hx')
  have hst : decide (r = C) = true → ∀ b j, Box B.v b → Box B.n j →
      dot (loops.map (rst k)) b + dot (sz.dropLast.map (rst k)) j = dot (loops.map (cst k)) b + dot (sz.dropLast.map (cst k)) j := fun h => (g.strides (inpl h)).2.2
  rw [g.n, g.v] at real cplx hrow hst
  rw [hm] at real cplx hrow
  cases k with
  | R2HC =>
    refine hwf_box rfl rfl (cplx (Or.inl rfl)) (fun h => real (Or.inr h)) hst (fun h b j b' j' x x' hb hj hb' hj' hx hx' => hrow h b j b' j' x x' hb hj hb' hj' ?_ ?_)
    · rcases hx with ⟨i, hi, rfl⟩ | ⟨i, hi, rfl⟩
      · exact Or.inl ⟨i, hi, rfl⟩
      · exact Or.inr ⟨i, hi, rfl⟩
    · rcases hx' with ⟨i, hi, rfl⟩ | ⟨i, hi, rfl⟩
      · exact Or.inl ⟨i, hi, rfl⟩
      · exact Or.inr ⟨i, hi, rfl⟩
  | HC2R =>
    refine hwf_box rfl rfl (real (Or.inl rfl)) (fun h => cplx (Or.inr h)) (fun h b j hb hj => (hst h b j hb hj).symm)
      (fun h b j b' j' x x' hb hj hb' hj' hx hx' he => hrow h b j b' j' x x' hb hj hb' hj' ?_ ?_ ?_)
    · rcases hx with ⟨i, hi, rfl⟩ | ⟨i, hi, rfl⟩
      · exact Or.inr ⟨i, hi, rfl⟩
      · exact Or.inl ⟨i, hi, rfl⟩
    · rcases hx' with ⟨i, hi, rfl⟩ | ⟨i, hi, rfl⟩
      · exact Or.inr ⟨i, hi, rfl⟩
      · exact Or.inl ⟨i, hi, rfl⟩
    · rw [hst h b j hb hj, hst h b' j' hb' hj']; exact he

end

end FFTW.Api
