import Verif.Model.F77
import Verif.Spec.F77
import Verif.Props.ApiR2c
import Verif.Props.ApiR2r

/-! # Reversing the dimensions of a batch -/

namespace FFTW.F77
open Tensor Spec DftS Planner RowMajor Api RdftS Finset

theorem reverseLoop_eq (l acc : List Int) : reverseLoop l acc = l.reverse ++ acc := by
  induction l generalizing acc with
  | nil => rfl
  | cons x l ih => rw [reverseLoop, ih]; simp

theorem reverseN_eq (l : List Int) : reverseN l = l.reverse := by rw [reverseN, reverseLoop_eq, List.append_nil]

theorem ints2kinds_eq (l : List R2rKind) : ints2kinds l = l.reverse := by
  apply List.ext_getElem?
  intro i
  unfold ints2kinds
  rw [List.getElem?_map]
  by_cases h : i < l.length
  · rw [List.getElem?_range h, List.getElem?_reverse h, Option.map_some, List.getElem?_eq_getElem (by omega)]; rfl
  · rw [List.getElem?_eq_none (by simpa using h), List.getElem?_eq_none (by simpa using h)]; rfl

theorem makeDims_map (n is os : List Int) : (makeDims n is os).map ofIo = (makeDims n is os).map fun d => (⟨d.n.toNat, d.is, d.os⟩ : Dim) := rfl

/-- column-major order is row-major order with everything reversed -/
theorem rowMajor_reverse {e : List ℤ} {j : List ℕ} (h : j.length = e.length) : rowMajor e.reverse j.reverse = colMajor e j := by
  induction e generalizing j with
  | nil => obtain rfl := List.length_eq_zero_iff.1 h; rfl
  | cons e es ih =>
    obtain ⟨a, as, rfl⟩ : ∃ a as, j = a :: as := by cases j <;> simp_all
    have hl : as.length = es.length := by simpa using h
    rw [colMajor, ← ih hl, List.reverse_cons, List.reverse_cons]
    unfold rowMajor
    rw [List.zip_append (by simp [hl]), List.foldl_append]
    simp only [List.zip_cons_cons, List.zip_nil_right, List.foldl_cons, List.foldl_nil]
    ring

theorem box_reverse {n k : List ℕ} (h : Box n k) : Box n.reverse k.reverse := List.rel_reverse h

theorem box_reverse' {n k : List ℕ} (h : Box n.reverse k) : Box n k.reverse := by simpa using box_reverse h

theorem sumBox_snoc' {V : Type} [AddCommMonoid V] (n : List ℕ) (m : ℕ) (f : List ℕ → V) :
    sumBox (n ++ [m]) f = sumBox n fun k => ∑ q ∈ range m, f (k ++ [q]) := by
  induction n generalizing f with
  | nil => rfl
  | cons n ns ih => simp only [List.cons_append, sumBox, ih]

theorem sumBox_reverse {V : Type} [AddCommMonoid V] (n : List ℕ) (f : List ℕ → V) : sumBox n.reverse (fun j => f j.reverse) = sumBox n f := by
  induction n generalizing f with
  | nil => rfl
  | cons n ns ih =>
    rw [List.reverse_cons, sumBox_snoc', sumBox]
    simp only [List.reverse_append, List.reverse_cons, List.reverse_nil, List.nil_append, List.singleton_append]
    rw [ih (fun k => ∑ q ∈ range n, f (q :: k))]
    exact sumBox_comm ns n fun q k => f (q :: k)

theorem twist_reverse (s : ℤ) {n j k : List ℕ} (hj : j.length = n.length) (hk : k.length = n.length) : twist s n.reverse j.reverse k.reverse = twist s n j k := by
  induction n generalizing j k with
  | nil => simp [twist]
  | cons n ns ih =>
    obtain ⟨a, as, rfl⟩ : ∃ a as, j = a :: as := by cases j <;> simp_all
    obtain ⟨b, bs, rfl⟩ : ∃ a as, k = a :: as := by cases k <;> simp_all
    have ha : as.length = ns.length := by simpa using hj
    have hb : bs.length = ns.length := by simpa using hk
    rw [List.reverse_cons, List.reverse_cons, List.reverse_cons, twist_append _ _ _ _ (by simp [ha]) (by simp [hb]), ih ha hb]
    simp only [twist]; ring

/-! ### batches of equal kinds of arrays -/

/-- `A` is `B` with the order of dimensions reversed -/
structure Rev (A B : Batch) : Prop where
  n : A.n = B.n.reverse
  v : A.v = B.v
  inp : ∀ b j, Box B.v b → Box B.n j → A.inp b j.reverse = B.inp b j
  out : ∀ b j, Box B.v b → Box B.n j → A.out b j.reverse = B.out b j

section
variable {A B : Batch}

theorem Rev.symm (h : Rev A B) : Rev B A where
  n := by rw [h.n, List.reverse_reverse]
  v := h.v.symm
  inp b j hb hj := by
    have := h.inp b j.reverse (h.v ▸ hb) (box_reverse' (h.n ▸ hj))
    rw [List.reverse_reverse] at this; exact this.symm
  out b j hb hj := by
    have := h.out b j.reverse (h.v ▸ hb) (box_reverse' (h.n ▸ hj))
    rw [List.reverse_reverse] at this; exact this.symm

theorem Rev.inp_le (h : Rev A B) {x : ℤ} (hx : B.Inp x) : A.Inp x := by
  obtain ⟨b, j, hb, hj, rfl⟩ := hx
  exact ⟨b, j.reverse, h.v ▸ hb, h.n ▸ box_reverse hj, (h.inp b j hb hj).symm⟩
theorem Rev.out_le (h : Rev A B) {x : ℤ} (hx : B.Out x) : A.Out x := by
  obtain ⟨b, j, hb, hj, rfl⟩ := hx
  exact ⟨b, j.reverse, h.v ▸ hb, h.n ▸ box_reverse hj, (h.out b j hb hj).symm⟩
theorem Rev.Inp (h : Rev A B) : A.Inp = B.Inp := funext fun _ => propext ⟨h.symm.inp_le, h.inp_le⟩
theorem Rev.Out (h : Rev A B) : A.Out = B.Out := funext fun _ => propext ⟨h.symm.out_le, h.out_le⟩

theorem Rev.outInj (h : Rev A B) (hA : A.OutInj) : B.OutInj := by
  intro b k b' k' hb hk hb' hk' he
  rw [← h.out b k hb hk, ← h.out b' k' hb' hk'] at he
  obtain ⟨h1, h2⟩ := hA b _ b' _ (h.v ▸ hb) (h.n ▸ box_reverse hk) (h.v ▸ hb') (h.n ▸ box_reverse hk') he
  exact ⟨h1, List.reverse_injective h2⟩
theorem Rev.inInj (h : Rev A B) (hA : A.InInj) : B.InInj := by
  intro b k b' k' hb hk hb' hk' he
  rw [← h.inp b k hb hk, ← h.inp b' k' hb' hk'] at he
  obtain ⟨h1, h2⟩ := hA b _ b' _ (h.v ▸ hb) (h.n ▸ box_reverse hk) (h.v ▸ hb') (h.n ▸ box_reverse hk') he
  exact ⟨h1, List.reverse_injective h2⟩

theorem Rev.separate (h : Rev A B) {p q : Ptr} (hA : Separate A p q) : Separate B p q := by
  unfold Separate at *; rwa [← h.Inp, ← h.Out]
theorem Rev.separateR (h : Rev A B) {p q : Ptr} (hA : SeparateR A p q) : SeparateR B p q := by
  unfold SeparateR at *; rwa [← h.Inp, ← h.Out]
theorem Rev.straight (h : Rev A B) (hA : A.Straight) : B.Straight := by
  refine ⟨fun x hx => hA.1 x (h.v ▸ hx), fun b j hb hj => ?_⟩
  rw [← h.inp b j hb hj, ← h.out b j hb hj]
  exact hA.2 b _ (h.v ▸ hb) (h.n ▸ box_reverse hj)

theorem Rev.dfts (h : Rev A B) {s : ℤ} {gi go : ℤ → ℂ} (hA : Dfts s A gi go) : Dfts s B gi go := by
  intro b k hb hk
  rw [← h.out b k hb hk, hA b _ (h.v ▸ hb) (h.n ▸ box_reverse hk), h.n, ← sumBox_reverse B.n]
  refine sumBox_congr fun j hj => ?_
  have hj' := box_reverse' hj
  rw [← h.inp b _ hb hj', List.reverse_reverse, ← twist_reverse s (box_length hj') (box_length hk), List.reverse_reverse]

theorem Rev.fits (h : Rev A B) {inp out inp' out' : Ptr} {st : State} (hf : Fits A inp out inp' out' st) : Fits B inp out inp' out' st :=
  ⟨hf.kind, h.separate hf.sep, hf.inpOk, hf.outOk⟩
theorem Rev.fitsR (h : Rev A B) {inp out inp' out' : Ptr} {st : State} (hf : FitsR A inp out inp' out' st) : FitsR B inp out inp' out' st :=
  ⟨hf.kind, h.separateR hf.sep, hf.inpOk, hf.outOk⟩

theorem Rev.doesDft (h : Rev A B) {s : ℤ} {d : Prop} {inp out : Ptr} {st st' : State} (hA : DoesDft s A d inp out st st') : DoesDft s B d inp out st st' := by
  refine ⟨h.dfts hA.1, ?_⟩
  rw [← h.Inp, ← h.Out]; exact hA.2

/-! ### products of one-dimensional transforms in the other order -/

theorem sizesOk_reverse {kinds : List R2rKind} {n : List ℕ} (h : SizesOk kinds n) : SizesOk kinds.reverse n.reverse := List.rel_reverse h

theorem sizesOk_snoc {kinds : List R2rKind} {n : List ℕ} {kd : R2rKind} {m : ℕ} (h : SizesOk kinds n) (h1 : kd = .FFTW_REDFT00 → 2 ≤ m) :
    SizesOk (kinds ++ [kd]) (n ++ [m]) := List.rel_append h (List.Forall₂.cons h1 .nil)

theorem docNd_snoc {kinds : List R2rKind} {n : List ℕ} (hs : SizesOk kinds n) {kd : R2rKind} {m : ℕ} (x : List ℕ → ℝ) {k : List ℕ} (hk : Box n k) (i : ℕ) :
    docNd (kinds ++ [kd]) (n ++ [m]) x (k ++ [i]) = docNd kinds n (fun js => kd.doc m (fun j => x (js ++ [j])) i) k := by
  induction n generalizing kinds k x with
  | nil =>
    obtain rfl := box_nil.1 hk
    cases kinds with
    | cons a as => exact absurd (List.Forall₂.length_eq hs) (by simp)
    | nil => rfl
  | cons n ns ih =>
    cases kinds with
    | nil => exact absurd (List.Forall₂.length_eq hs) (by simp)
    | cons kd' kinds =>
      obtain ⟨h2, hs⟩ := List.forall₂_cons.1 hs
      obtain ⟨k, ks, h1, hk', rfl⟩ := box_cons.1 hk
      simp only [List.cons_append, docNd]
      congr 1
      funext j
      exact ih hs _ hk'

theorem docNd_reverse {kinds : List R2rKind} {n : List ℕ} (hs : SizesOk kinds n) (x : List ℕ → ℝ) {k : List ℕ} (hk : Box n k) :
    docNd kinds.reverse n.reverse (fun j => x j.reverse) k.reverse = docNd kinds n x k := by
  induction n generalizing kinds k x with
  | nil =>
    obtain rfl := box_nil.1 hk
    cases kinds with
    | cons a as => exact absurd (List.Forall₂.length_eq hs) (by simp)
    | nil => rfl
  | cons n ns ih =>
    cases kinds with
    | nil => exact absurd (List.Forall₂.length_eq hs) (by simp)
    | cons kd kinds =>
      obtain ⟨h2, hs⟩ := List.forall₂_cons.1 hs
      obtain ⟨k, ks, h1, hk', rfl⟩ := box_cons.1 hk
      have hn : 0 < n := by omega
      rw [List.reverse_cons, List.reverse_cons, List.reverse_cons, docNd_snoc (sizesOk_reverse hs) _ (box_reverse hk')]
      simp only [List.reverse_append, List.reverse_cons, List.reverse_nil, List.nil_append, List.singleton_append]
      rw [ih hs (fun js => kd.doc n (fun j => x (j :: js)) k) hk', docNd]
      simp only [← doc_kernel hn h2 _ h1]
      exact docNd_lin hs hk' n _ fun j js => x (j :: js)

theorem Rev.r2rs (h : Rev A B) {kinds : List R2rKind} (hs : SizesOk kinds B.n) {gi go : ℤ → ℝ} (hA : R2rs kinds.reverse A gi go) : R2rs kinds B gi go := by
  intro b k hb hk
  rw [← h.out b k hb hk, hA b _ (h.v ▸ hb) (h.n ▸ box_reverse hk), h.n, ← docNd_reverse hs _ hk]
  refine docNd_congr (sizesOk_reverse hs) (box_reverse hk) fun j hj => ?_
  have hj' := box_reverse' hj
  rw [← h.inp b _ hb hj', List.reverse_reverse]

theorem Rev.doesR2r (h : Rev A B) {kinds : List R2rKind} (hs : SizesOk kinds B.n) {d : Prop} {inp out : Ptr} {st st' : State}
    (hA : DoesR2r kinds.reverse A d inp out st st') : DoesR2r kinds B d inp out st st' := by
  refine ⟨h.r2rs hs hA.1, ?_⟩
  rw [← h.Inp, ← h.Out]; exact hA.2

theorem Rev.r2rOk (h : Rev A B) {kinds : List R2rKind} {flags : MapFlags.U32} {inp out : Ptr} (hA : R2rOk kinds A flags inp out) : R2rOk kinds.reverse B flags inp out where
  sizes := by have := sizesOk_reverse hA.sizes; rwa [h.n, List.reverse_reverse] at this
  outInj := h.outInj hA.outInj
  inInj hf := h.inInj (hA.inInj hf)
  sep := h.separateR hA.sep
  straight he hk := h.straight (hA.straight he (by obtain ⟨kd, h1, h2⟩ := hk; exact ⟨kd, by simpa using h1, h2⟩))

end

/-! ### real and complex arrays -/

/-- `A` is `B` with the order of all dimensions but the halved one reversed -/
structure RRev (A B : RBatch) : Prop where
  n : A.n = B.n.reverse
  m : A.m = B.m
  v : A.v = B.v
  real : ∀ b j i, Box B.v b → Box B.n j → A.real b j.reverse i = B.real b j i
  cplx : ∀ b j i, Box B.v b → Box B.n j → A.cplx b j.reverse i = B.cplx b j i

section
variable {A B : RBatch}

theorem RRev.symm (h : RRev A B) : RRev B A where
  n := by rw [h.n, List.reverse_reverse]
  m := h.m.symm
  v := h.v.symm
  real b j i hb hj := by
    have := h.real b j.reverse i (h.v ▸ hb) (box_reverse' (h.n ▸ hj))
    rw [List.reverse_reverse] at this; exact this.symm
  cplx b j i hb hj := by
    have := h.cplx b j.reverse i (h.v ▸ hb) (box_reverse' (h.n ▸ hj))
    rw [List.reverse_reverse] at this; exact this.symm

theorem RRev.real_le (h : RRev A B) {x : ℤ} (hx : B.Real x) : A.Real x := by
  obtain ⟨b, j, i, hb, hj, hi, rfl⟩ := hx
  exact ⟨b, j.reverse, i, h.v ▸ hb, h.n ▸ box_reverse hj, h.m ▸ hi, (h.real b j i hb hj).symm⟩
theorem RRev.cplx_le (h : RRev A B) {x : ℤ} (hx : B.Cplx x) : A.Cplx x := by
  obtain ⟨b, j, i, hb, hj, hi, rfl⟩ := hx
  exact ⟨b, j.reverse, i, h.v ▸ hb, h.n ▸ box_reverse hj, h.m ▸ hi, (h.cplx b j i hb hj).symm⟩
theorem RRev.Real (h : RRev A B) : A.Real = B.Real := funext fun _ => propext ⟨h.symm.real_le, h.real_le⟩
theorem RRev.Cplx (h : RRev A B) : A.Cplx = B.Cplx := funext fun _ => propext ⟨h.symm.cplx_le, h.cplx_le⟩

theorem RRev.realInj (h : RRev A B) (hA : A.RealInj) : B.RealInj := by
  intro b j i b' j' i' hb hj hi hb' hj' hi' he
  rw [← h.real b j i hb hj, ← h.real b' j' i' hb' hj'] at he
  obtain ⟨h1, h2, h3⟩ := hA b _ i b' _ i' (h.v ▸ hb) (h.n ▸ box_reverse hj) (h.m ▸ hi) (h.v ▸ hb') (h.n ▸ box_reverse hj') (h.m ▸ hi') he
  exact ⟨h1, List.reverse_injective h2, h3⟩
theorem RRev.cplxInj (h : RRev A B) (hA : A.CplxInj) : B.CplxInj := by
  intro b j i b' j' i' hb hj hi hb' hj' hi' he
  rw [← h.cplx b j i hb hj, ← h.cplx b' j' i' hb' hj'] at he
  obtain ⟨h1, h2, h3⟩ := hA b _ i b' _ i' (h.v ▸ hb) (h.n ▸ box_reverse hj) (h.m ▸ hi) (h.v ▸ hb') (h.n ▸ box_reverse hj') (h.m ▸ hi') he
  exact ⟨h1, List.reverse_injective h2, h3⟩

theorem RRev.row (h : RRev A B) {r : Ptr} {C : CArr} {b j : List ℕ} (hb : Box B.v b) (hj : Box B.n j) (q : Ptr) : A.Row r C b j.reverse q ↔ B.Row r C b j q := by
  unfold RBatch.Row
  simp only [h.real b j _ hb hj, h.cplx b j _ hb hj, h.m]

theorem RRev.inPlace (h : RRev A B) {r : Ptr} {C : CArr} (hA : A.InPlace r C) : B.InPlace r C where
  pos x hx := hA.pos x (h.v ▸ hx)
  start b j hb hj := by
    rw [← h.real b j 0 hb hj, ← h.cplx b j 0 hb hj]
    exact hA.start b _ (h.v ▸ hb) (h.n ▸ box_reverse hj)
  rows b j b' j' q hb hj hb' hj' h1 h2 := by
    obtain ⟨e1, e2⟩ := hA.rows b j.reverse b' j'.reverse q (h.v ▸ hb) (h.n ▸ box_reverse hj) (h.v ▸ hb') (h.n ▸ box_reverse hj') ((h.row hb hj q).2 h1) ((h.row hb' hj' q).2 h2)
    exact ⟨e1, List.reverse_injective e2⟩

theorem RRev.apart (h : RRev A B) {r : Ptr} {C : CArr} (hA : A.Apart r C) : B.Apart r C := by
  unfold RBatch.Apart at *; rwa [← h.Real, ← h.Cplx]

theorem RRev.arranged (h : RRev A B) {r : Ptr} {C : CArr} (hA : A.Arranged r C) : B.Arranged r C :=
  hA.imp (fun h1 => ⟨h1.1, h.inPlace h1.2⟩) fun h1 => ⟨h1.1, h.apart h1.2⟩

theorem RRev.r2cOk (h : RRev A B) {flags : MapFlags.U32} {r : Ptr} {C : CArr} (hA : R2cOk A flags r C) : R2cOk B flags r C :=
  ⟨⟨h.cplxInj hA.out.1, h.Cplx ▸ hA.out.2⟩, fun hd => h.realInj (hA.inp hd), h.arranged hA.arr⟩
theorem RRev.c2rOk (h : RRev A B) {flags : MapFlags.U32} {r : Ptr} {C : CArr} (hA : C2rOk A flags r C) : C2rOk B flags r C :=
  ⟨h.realInj hA.out, fun hd => ⟨h.cplxInj (hA.inp hd).1, h.Cplx ▸ (hA.inp hd).2⟩, h.arranged hA.arr⟩
theorem RRev.fits2 (h : RRev A B) {r r' : Ptr} {C C' : CArr} {st : State} (hA : Fits2 A r C r' C' st) : Fits2 B r C r' C' st :=
  ⟨hA.kind, fun hd => h.apart (hA.sep hd), hA.realOk, hA.cplxOk⟩

/-- the twiddle of reversed index vectors -/
theorem twist_rev_snoc (s : ℤ) {n j k : List ℕ} (m i q : ℕ) (hj : Box n j) (hk : Box n k) :
    twist s (n.reverse ++ [m]) (j.reverse ++ [i]) (k.reverse ++ [q]) = twist s (n ++ [m]) (j ++ [i]) (k ++ [q]) := by
  have h1 := box_length hj
  have h2 := box_length hk
  rw [twist_append _ _ _ _ (by simp [h1]) (by simp [h2]), twist_append _ _ _ _ h1 h2, twist_reverse s h1 h2]

theorem oppose_reverse {n k : List ℕ} (h : k.length = n.length) : oppose n.reverse k.reverse = (oppose n k).reverse := by
  unfold oppose
  rw [List.reverse_zipWith h.symm]

theorem RRev.r2cs (h : RRev A B) {x : ℤ → ℝ} {X : ℤ → ℂ} (hA : R2cs A x X) : R2cs B x X := by
  intro b k q hb hk hq
  rw [← h.cplx b k q hb hk, hA b _ q (h.v ▸ hb) (h.n ▸ box_reverse hk) (h.m ▸ hq), h.n, h.m, ← sumBox_reverse B.n]
  refine sumBox_congr fun j hj => Finset.sum_congr rfl fun i _ => ?_
  have hj' := box_reverse' hj
  rw [← h.real b _ i hb hj', ← twist_rev_snoc (-1) B.m i q hj' hk, List.reverse_reverse]

theorem RRev.c2rs (h : RRev A B) {X : ℤ → ℂ} {x : ℤ → ℝ} (hA : C2rs A X x) : C2rs B X x := by
  intro b k q hb hk hq
  rw [← h.real b k q hb hk, hA b _ q (h.v ▸ hb) (h.n ▸ box_reverse hk) (h.m ▸ hq), h.n, h.m, ← sumBox_reverse B.n]
  congr 1
  refine sumBox_congr fun j hj => Finset.sum_congr rfl fun i _ => ?_
  have hj' := box_reverse' hj
  rw [← twist_rev_snoc 1 B.m i q hj' hk, List.reverse_reverse]
  congr 1
  unfold hermitian
  beta_reduce
  split
  · rw [← h.cplx b _ i hb hj', List.reverse_reverse]
  · rw [← h.cplx b _ _ hb (box_oppose hj'), ← oppose_reverse (box_length hj'), List.reverse_reverse]

theorem RRev.doesR2c (h : RRev A B) {d : Prop} {r : Ptr} {C : CArr} {st st' : State} (hA : DoesR2c A d r C st st') : DoesR2c B d r C st st' := by
  refine ⟨h.r2cs hA.1, ?_⟩
  rw [← h.Real, ← h.Cplx]; exact hA.2
theorem RRev.doesC2r (h : RRev A B) {d : Prop} {r : Ptr} {C : CArr} {st st' : State} (hA : DoesC2r A d r C st st') : DoesC2r B d r C st st' := by
  refine ⟨h.c2rs hA.1, ?_⟩
  rw [← h.Real, ← h.Cplx]; exact hA.2

end

end FFTW.F77
