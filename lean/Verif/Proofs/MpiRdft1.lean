import Verif.Model.MpiRdft
import Verif.Proofs.MpiDft5

/-! local real-to-real transforms of distributed arrays -/

namespace FFTW.Mpi.Rdft
open Tensor Spec RdftS

/-- a real number -/
noncomputable def rval (m : Ptr → ℝ) (P : Ptr) (x : ℕ) : ℝ := m (P + ((x : ℕ) : ℤ))

theorem relt_eq (vn : ℕ) (comm : Comm) (P : ℕ → Ptr) (st : Dist) (r x v : ℕ) :
    relt vn comm P st (r, x) v = rval (st (comm.at r)).mem (P (comm.at r)) (x * vn + v) := rfl

/-- dimensions of an array of reals -/
def sgl (l : List (ℕ × ℕ)) : List Dim := l.map fun e => eqDim e.1 e.2

theorem offs_sgl (l : List (ℕ × ℕ)) : offs ((sgl l).map fun d => (d.n, d.is)) = offs (zst l) := by
  unfold sgl zst
  rw [List.map_map]; rfl

theorem sgl_append (a b : List (ℕ × ℕ)) : sgl (a ++ b) = sgl a ++ sgl b := List.map_append

theorem sgl_fst {a : List (ℕ × ℕ)} {kd : List RKind} (h : kd.length = a.length) : ((sgl a).zip kd).map Prod.fst = sgl a :=
  List.map_fst_zip (by simp [sgl, h])

theorem ins_sgl {a b : List (ℕ × ℕ)} {kd : List RKind} (h : kd.length = a.length) :
    ins (append (some (((sgl a).zip kd).map Prod.fst)) (some (sgl b))) = offs (zst (a ++ b)) := by
  rw [sgl_fst h, ← offs_sgl, sgl_append]; rfl
theorem outs_sgl {a b : List (ℕ × ℕ)} {kd : List RKind} (h : kd.length = a.length) :
    outs (append (some (((sgl a).zip kd).map Prod.fst)) (some (sgl b))) = offs (zst (a ++ b)) := by
  rw [← ins_sgl h, sgl_fst h]
  show offs ((sgl a ++ sgl b).map fun d => (d.n, d.os)) = offs ((sgl a ++ sgl b).map fun d => (d.n, d.is))
  rw [← sgl_append]
  unfold sgl
  rw [List.map_map, List.map_map]; rfl

/-- `Index`es as dimensions with kinds -/
theorem gIdx_sgl : ∀ (l : List (ℕ × ℕ)) (kd : List RKind) (k : List ℕ), kd.length = l.length → Index (l.map Prod.fst) k → GIdx ((sgl l).zip kd) (((sgl l).zip kd).zip k) ∧
    gOut (((sgl l).zip kd).zip k) = ((lin l k : ℕ) : ℤ) ∧
    ∀ x : ℤ → ℝ, gSum rK (((sgl l).zip kd).zip k) x = r2rSum (l.map Prod.fst) kd k fun j => x ((lin l j : ℕ) : ℤ) := by
  intro l
  induction l with
  | nil =>
    intro kd k hl hk
    cases hk
    exact ⟨⟨rfl, by simp [sgl]⟩, rfl, fun x => by
      show x 0 = r2rSum [] kd [] _
      unfold r2rSum
      rfl⟩
  | cons e l ih =>
    intro kd k hl hk
    obtain _ | ⟨t, kd⟩ := kd
    · simp at hl
    cases hk with
    | @cons i _ ks _ hi hk =>
    obtain ⟨h1, h2, h3⟩ := ih kd ks (by simpa using hl) hk
    refine ⟨⟨?_, ?_⟩, ?_, ?_⟩
    · show ((eqDim e.1 e.2, t) :: (((sgl l).zip kd).zip ks).map Prod.fst) = _
      rw [h1.1]; rfl
    · intro x hx
      rcases List.mem_cons.1 (show x ∈ ((eqDim e.1 e.2, t), i) :: ((sgl l).zip kd).zip ks from hx) with rfl | hx
      · exact hi
      · exact h1.2 x hx
    · show (i : ℤ) * ((e.2 : ℕ) : ℤ) + gOut (((sgl l).zip kd).zip ks) = _
      rw [h2]
      show _ = (((i * e.2 + lin l ks) : ℕ) : ℤ)
      push_cast; ring
    · intro x
      show ∑ j ∈ Finset.range e.1, rK t e.1 j i * gSum rK (((sgl l).zip kd).zip ks) (fun o => x (j * ((e.2 : ℕ) : ℤ) + o)) =
        ∑ j ∈ Finset.range e.1, rK t e.1 j i * r2rSum (l.map Prod.fst) kd ks fun js => x (((j * e.2 + lin l js) : ℕ) : ℤ)
      refine Finset.sum_congr rfl fun j _ => ?_
      rw [h3]
      congr 2

theorem pairs_sgl : ∀ (l : List (ℕ × ℕ)) (u : List ℕ), Index (l.map Prod.fst) u → (((lin l u : ℕ) : ℤ), ((lin l u : ℕ) : ℤ)) ∈ pairs (some (sgl l)) := by
  intro l
  induction l with
  | nil => intro u hu; cases hu; simp [pairs, sgl, offs, lin]
  | cons e l ih =>
    intro u hu
    cases hu with
    | @cons i _ ks _ hi hk =>
    have := mem_pairsC (d := eqDim e.1 e.2) hi (ih ks hk)
    exact mem_cast this (by simp [eqDim, lin]) (by simp [eqDim, lin])

theorem val_real (m : Ptr → ℝ) (p : Ptr) (o : ℤ) : (val m p 0 o : ℝ) = m (p + o) := by
  show m _ = m _; congr 2; push_cast; ring

variable [CLib]

theorem posK_sgl {a : List (ℕ × ℕ)} (hp : ∀ e ∈ a, 0 < e.1) (kd : List RKind) : PosK ((sgl a).zip kd) := by
  intro x hx
  have := (List.of_mem_zip (show (x.1, x.2) ∈ _ from hx)).1
  obtain ⟨e, he, h⟩ := List.mem_map.1 this
  rw [← h]
  exact hp e he

theorem kosher_rdftPr {a b : List (ℕ × ℕ)} {kd : List RKind} (hl : kd.length = a.length) {N : ℕ} (hf : Fits (zst (a ++ b)) N) (hp : ∀ e ∈ a, 0 < e.1) {P Q : Ptr} (h : P ≠ Q → Far P Q N) :
    Kosher (rdftPr (sgl a) kd (sgl b) P Q) := by
  refine kosher_mkproblemRdft (posK_sgl hp kd) ?_ ?_
  · intro hne x hx y hy
    rw [ins_sgl hl] at hx
    rw [outs_sgl hl] at hy
    obtain ⟨x0, x1⟩ := hf.bounds x hx
    obtain ⟨y0, y1⟩ := hf.bounds y hy
    have := h hne x.toNat (by omega) y.toNat (by omega)
    rwa [Int.toNat_of_nonneg x0, Int.toNat_of_nonneg y0] at this
  · intro _ _ _ _
    constructor
    · intro x hx _
      have := (List.of_mem_zip (show (x.1, x.2) ∈ _ from hx)).1
      obtain ⟨e, he, h⟩ := List.mem_map.1 this
      rw [← h]; rfl
    · intro l hl d hd _
      obtain rfl := Option.some.inj hl
      obtain ⟨e, he, rfl⟩ := List.mem_map.1 hd
      rfl

/-- what a plan for a local transform does -/
theorem local_rdft {a b : List (ℕ × ℕ)} {kd : List RKind} (hl : kd.length = a.length) {N : ℕ} (hf : Fits (zst (a ++ b)) N) (hp : ∀ e ∈ a, 0 < e.1) {nd : Bool} {P0 Q0 : Ptr} {c : Plan}
    (h : FFTW.Sound nd (rdftPr (sgl a) kd (sgl b) P0 Q0) c)
    {P Q : Ptr} {st : State} (bP : P.blk < st.next) (bQ : Q.blk < st.next) (hs : P0 = Q0 → P = Q) (hd : P0 ≠ Q0 → Far P Q N) :
    Frame st (c.rdftApply P Q st) (PW nd P Q N) ∧
      ∀ k, Index (a.map Prod.fst) k → ∀ u, Index (b.map Prod.fst) u →
        rval (c.rdftApply P Q st).mem Q (lin a k + lin b u) = r2rSum (a.map Prod.fst) kd k fun j => rval st.mem P (lin a j + lin b u) := by
  obtain ⟨h1, h2⟩ := sound_mkproblemRdft (posK_sgl hp kd) h
  have ei := (ins_locT_real 0 0 ((sgl a).zip kd) (some (sgl b))).trans (ins_sgl (b := b) hl)
  have eo := (outs_locT_real 0 0 ((sgl a).zip kd) (some (sgl b))).trans (outs_sgl (b := b) hl)
  obtain ⟨g1, g2⟩ := h1 ⟨by rw [eo]; exact hf.nodup, fun _ => by rw [ei]; exact hf.nodup, fun _ => by rw [ei, eo], fun _ => rfl⟩ P Q st
    ⟨bP, bQ, fun e => hs (by simpa using e), fun e x hx y hy => by
      rw [ei] at hx
      rw [eo] at hy
      obtain ⟨x0, x1⟩ := hf.bounds x hx
      obtain ⟨y0, y1⟩ := hf.bounds y hy
      have := hd (by simpa using e) x.toNat (by omega) y.toNat (by omega)
      rwa [Int.toNat_of_nonneg x0, Int.toNat_of_nonneg y0] at this⟩
  constructor
  · refine g1.mono ?_
    rintro q _ (⟨y, hy, e⟩ | ⟨hn, y, hy, e⟩)
    · rw [eo] at hy
      obtain ⟨y0, y1⟩ := hf.bounds y hy
      exact Or.inl ⟨y.toNat, by omega, by rw [Int.toNat_of_nonneg y0, e]⟩
    · rw [ei] at hy
      obtain ⟨y0, y1⟩ := hf.bounds y hy
      exact Or.inr ⟨hn, y.toNat, by omega, by rw [Int.toNat_of_nonneg y0, e]⟩
  · intro k hk u hu
    obtain ⟨i1, i2, i3⟩ := gIdx_sgl a kd k hl hk
    have := g2 _ i1 _ (pairs_sgl b u hu)
    rw [i2, i3] at this
    simp only [val_real, ← Nat.cast_add] at this
    exact this

/-- all processes transform their local data -/
theorem stage {comm : Comm} {space : ℕ → ℕ} (hnd : comm.Nodup) {a b : ℕ → List (ℕ × ℕ)} {kd : ℕ → List RKind} {N : ℕ → ℕ} (hl : ∀ me < comm.length, (kd me).length = (a me).length)
    (hf : ∀ me < comm.length, Fits (zst (a me ++ b me)) (N me)) (hp : ∀ me < comm.length, ∀ e ∈ a me, 0 < e.1)
    (hr : ∀ me < comm.length, N me ≤ space (comm.at me)) {nd : Bool} {P0 Q0 P Q : ℕ → Ptr} {inpl : Prop} (h0 : MApart comm space inpl P0 Q0) {st : Dist}
    (hc : MCompat comm space inpl P Q st) {c : ℕ → Plan}
    (h : ∀ me < comm.length, ∀ x, some (rdftPr (sgl (a me)) (kd me) (sgl (b me)) (P0 (comm.at me)) (Q0 (comm.at me))) = some x → FFTW.Sound nd x (c me)) :
    MFrame comm space nd P Q st (comm.run (fun me => (c me).rdftApply (P (comm.at me)) (Q (comm.at me))) st) ∧
    ∀ me < comm.length, ∀ k, Index ((a me).map Prod.fst) k → ∀ u, Index ((b me).map Prod.fst) u →
      rval (comm.run (fun me => (c me).rdftApply (P (comm.at me)) (Q (comm.at me))) st (comm.at me)).mem (Q (comm.at me)) (lin (a me) k + lin (b me) u) =
        r2rSum ((a me).map Prod.fst) (kd me) k fun j => rval (st (comm.at me)).mem (P (comm.at me)) (lin (a me) j + lin (b me) u) := by
  have key : ∀ me < comm.length, _ := fun me hme => local_rdft (hl me hme) (hf me hme) (hp me hme) (h me hme _ rfl) (hc.blkI _ (at_mem hme)) (hc.blkO _ (at_mem hme))
    (fun e => hc.same ((h0.iff (at_mem hme)).1 e) _ (at_mem hme))
    (fun e => Far.mono (hc.disj (fun hs => e ((h0.iff (at_mem hme)).2 hs)) _ (at_mem hme)) (hr me hme))
  refine ⟨mframe (fun w hw => run_other hw _ _) fun me hme => ?_, fun me hme => ?_⟩
  · rw [run_at hnd hme]
    exact (key me hme).1.mono fun q _ hq => PW.mono hq (hr me hme)
  · rw [run_at hnd hme]
    exact (key me hme).2

theorem stage_kosher {comm : Comm} {space : ℕ → ℕ} {a b : ℕ → List (ℕ × ℕ)} {kd : ℕ → List RKind} {N : ℕ → ℕ} (hl : ∀ me < comm.length, (kd me).length = (a me).length)
    (hf : ∀ me < comm.length, Fits (zst (a me ++ b me)) (N me))
    (hp : ∀ me < comm.length, ∀ e ∈ a me, 0 < e.1)
    (hr : ∀ me < comm.length, N me ≤ space (comm.at me)) {P0 Q0 : ℕ → Ptr} {inpl : Prop} (h0 : MApart comm space inpl P0 Q0) :
    ∀ me < comm.length, ∀ x, some (rdftPr (sgl (a me)) (kd me) (sgl (b me)) (P0 (comm.at me)) (Q0 (comm.at me))) = some x → Kosher x := by
  intro me hme x hx
  obtain rfl := Option.some.inj hx
  exact kosher_rdftPr (hl me hme) (hf me hme) (hp me hme) fun hne => Far.mono (h0.disj (fun hs => hne ((h0.iff (at_mem hme)).2 hs)) _ (at_mem hme)) (hr me hme)

/-- transpositions move real numbers -/
theorem tok_relt {nx ny m block tblock : ℕ} {I0 O0 I O : ℕ → Ptr} {comm : Comm} {space : ℕ → ℕ} {nd : Bool} {f : MPlan} {st : Dist}
    (h : TOK nd (mkTrans nx ny m I0 O0 block tblock comm {} space) f) (hc : MCompat comm space (I0 (comm.at 0) = O0 (comm.at 0)) I O st) :
    MFrame comm space nd I O st (f I O st) ∧ ∀ i < nx, ∀ j < ny, ∀ u < m,
      relt m comm O (f I O st) (j / tblock, j % tblock * nx + i) u = relt m comm I st (i / block, i % block * ny + j) u := by
  obtain ⟨h1, h2⟩ := tok_raw h I O st hc
  exact ⟨h1, fun i hi j hj u hu => h2 i hi j hj u hu⟩

theorem relt_regroup (a m : ℕ) (comm : Comm) (P : ℕ → Ptr) (st : Dist) (r x y u : ℕ) :
    relt (a * m) comm P st (r, x) (y * m + u) = relt m comm P st (r, x * a + y) u := by
  rw [relt_eq, relt_eq]
  congr 1
  ring

theorem r2rSum_congr {ns : List ℕ} {x y : List ℕ → ℝ} : ∀ {kd : List RKind} {k : List ℕ}, Index ns k → (∀ j, Index ns j → x j = y j) → kd.length = ns.length → r2rSum ns kd k x = r2rSum ns kd k y := by
  induction ns generalizing x y with
  | nil => intro kd k hk h hl; cases hk; obtain rfl := List.length_eq_zero_iff.1 hl; exact h [] .nil
  | cons n ns ih =>
    intro kd k hk h hl
    obtain _ | ⟨t, kd⟩ := kd
    · simp at hl
    cases hk with
    | @cons i _ ks _ hi hk =>
    show ∑ j ∈ Finset.range n, _ = ∑ j ∈ Finset.range n, _
    refine Finset.sum_congr rfl fun j hj => ?_
    congr 1
    exact ih hk (fun js hjs => h (j :: js) (.cons (Finset.mem_range.1 hj) hjs)) (by simpa using hl)

end FFTW.Mpi.Rdft
