import Verif.Proofs.MpiDft

/-! places of elements; stages of distributed DFTs -/

namespace FFTW.Mpi
open Tensor Spec RdftS
variable [CLib]

/-! ### layouts -/

/-- row-major position -/
def rm : List ℕ → List ℕ → ℕ
  | _ :: ns, k :: ks => k * ns.prod + rm ns ks
  | _, _ => 0

/-- dimensions that are not distributed -/
def whole (ns : List ℕ) : List (ℕ × ℕ) := ns.map fun n => (n, n)

theorem numBlocks_self {n : ℕ} (h : 0 < n) : numBlocks n n = 1 := by
  unfold numBlocks
  exact Nat.div_eq_of_lt_le (by omega) (by omega)

theorem block_self (n : ℕ) : block n n 0 = n := by rw [block_eq]; omega

theorem placeFrom_whole : ∀ (ns ks : List ℕ) (r l : ℕ), Index ns ks → placeFrom r l (whole ns) ks = (r, l * ns.prod + rm ns ks) := by
  intro ns
  induction ns with
  | nil => intro ks r l h; cases h; simp [whole, placeFrom, rm]
  | cons n ns ih =>
    intro ks r l h
    cases h with
    | @cons k _ ks _ hk h =>
    show placeFrom (r * numBlocks n n + k / n) (l * block n n (k / n) + k % n) (whole ns) ks = _
    rw [numBlocks_self (by omega), Nat.div_eq_of_lt hk, Nat.mod_eq_of_lt hk, block_self, ih _ _ _ h]
    simp only [rm, List.prod_cons]
    refine Prod.ext (by simp) ?_
    show (l * n + k) * ns.prod + rm ns ks = l * (n * ns.prod) + (k * ns.prod + rm ns ks)
    ring

theorem place_cons {n b k : ℕ} {ns ks : List ℕ} (h : Index ns ks) : place ((n, b) :: whole ns) (k :: ks) = (k / b, k % b * ns.prod + rm ns ks) := by
  show placeFrom (0 * numBlocks n b + k / b) (0 * block n b (k / b) + k % b) (whole ns) ks = _
  rw [placeFrom_whole _ _ _ _ h]
  simp

theorem place_whole {ns ks : List ℕ} (h : Index ns ks) : place (whole ns) ks = (0, rm ns ks) := by
  unfold place
  rw [placeFrom_whole _ _ _ _ h]; simp

theorem nb_whole {ns : List ℕ} (h : ∀ n ∈ ns, 0 < n) : ((whole ns).map fun d => numBlocks d.1 d.2).prod = 1 := by
  induction ns with
  | nil => rfl
  | cons n ns ih =>
    simp only [whole, List.map_cons, List.prod_cons] at ih ⊢
    rw [numBlocks_self (h n (by simp)), ih fun m hm => h m (by simp [hm])]

theorem localSize_whole {ns : List ℕ} (h : ∀ n ∈ ns, 0 < n) : localSize (whole ns) 0 = ns.prod := by
  induction ns with
  | nil => rfl
  | cons n ns ih =>
    show block n n (0 / ((whole ns).map fun d => numBlocks d.1 d.2).prod) * localSize (whole ns) (0 % ((whole ns).map fun d => numBlocks d.1 d.2).prod) = _
    rw [Nat.zero_div, Nat.zero_mod, block_self, ih fun m hm => h m (by simp [hm])]
    rfl

theorem localSize_cons {n b : ℕ} {ns : List ℕ} (h : ∀ n ∈ ns, 0 < n) (r : ℕ) : localSize ((n, b) :: whole ns) r = block n b r * ns.prod := by
  show block n b (r / ((whole ns).map fun d => numBlocks d.1 d.2).prod) * localSize (whole ns) (r % ((whole ns).map fun d => numBlocks d.1 d.2).prod) = _
  rw [nb_whole h, Nat.div_one, Nat.mod_one, localSize_whole h]

theorem rm_lt {ns ks : List ℕ} (h : Index ns ks) : rm ns ks < ns.prod := by
  induction h with
  | nil => simp [rm]
  | @cons k n ks ns hk _ ih => exact lin_lt hk ih

/-- strides of a row-major array of `s`-tuples -/
def rowsL (s : ℕ) : List ℕ → List (ℕ × ℕ)
  | [] => []
  | n :: ns => (n, ns.prod * s) :: rowsL s ns

theorem rowsL_fst (s : ℕ) (ns : List ℕ) : (rowsL s ns).map Prod.fst = ns := by
  induction ns with
  | nil => rfl
  | cons n ns ih => simp [rowsL, ih]

theorem rowMajor_eq (s : ℕ) (ns : List ℕ) : rowMajor (s * 2) ns = dbl (rowsL s ns) := by
  induction ns with
  | nil => rfl
  | cons n ns ih =>
    simp only [rowMajor, rowsL, dbl, List.map_cons] at ih ⊢
    rw [ih, Nat.mul_assoc]

theorem lin_rows (s : ℕ) : ∀ ns k : List ℕ, Index ns k → lin (rowsL s ns) k = rm ns k * s := by
  intro ns
  induction ns with
  | nil => intro k h; cases h; simp [rowsL, lin, rm]
  | cons n ns ih =>
    intro k h
    cases h with
    | @cons k _ ks _ hk h =>
    simp only [rowsL, lin, rm, ih ks h]
    ring

theorem nest_rows (s : ℕ) (ns : List ℕ) : Nest (zst (rowsL s ns ++ [(s, 1)])) (ns.prod * s) := by
  induction ns with
  | nil => simpa [rowsL, zst] using Nest.one s
  | cons n ns ih =>
    have := Nest.mul (n := n) ih le_rfl
    simp only [rowsL, zst, List.cons_append, List.map_cons, List.prod_cons] at this ⊢
    rw [Nat.mul_assoc]
    exact this

theorem fits_rows (s b : ℕ) (ns : List ℕ) : Fits (zst (rowsL s ns ++ [(b, ns.prod * s), (s, 1)])) (b * (ns.prod * s)) := by
  have := Nest.mul (n := b) (nest_rows s ns) le_rfl
  refine this.fits ?_ le_rfl
  have e : (((b, ((ns.prod * s : ℕ) : ℤ))) :: zst (rowsL s ns ++ [(s, 1)])) = zst ((b, ns.prod * s) :: (rowsL s ns ++ [(s, 1)])) := rfl
  rw [e]
  unfold zst
  exact List.Perm.map _ List.perm_middle

theorem fits_whole (s : ℕ) (ns : List ℕ) : Fits (zst (rowsL s ns ++ [(s, 1)])) (ns.prod * s) := (nest_rows s ns).fits (List.Perm.refl _) le_rfl

theorem fits_cols (n b s : ℕ) : Fits (zst ([(n, s)] ++ [(b, n * s), (s, 1)])) (b * (n * s)) := by
  refine (Nest.mul (n := b) (Nest.mul (n := n) (Nest.one s) le_rfl) le_rfl).fits ?_ le_rfl
  simp only [zst, List.cons_append, List.nil_append, List.map_cons, List.map_nil, Nat.cast_one]
  exact List.Perm.swap _ _ _

theorem elt_regroup (bwd : Bool) (a m : ℕ) (comm : Comm) (P : ℕ → Ptr) (st : Dist) (r x y u : ℕ) :
    elt bwd (a * m) comm P st (r, x) (y * m + u) = elt bwd m comm P st (r, x * a + y) u := by
  rw [elt_eq, elt_eq]
  congr 1
  ring

/-! ### stages -/

/-- memory handed to the next stage -/
theorem MCompat.later {comm : Comm} {space : ℕ → ℕ} {inpl : Prop} {I O : ℕ → Ptr} {st st1 : Dist} (hc : MCompat comm space inpl I O st)
    (hn : ∀ w ∈ comm, (st w).next ≤ (st1 w).next) : MCompat comm space inpl I O st1 :=
  ⟨fun w hw => lt_of_lt_of_le (hc.blkI w hw) (hn w hw), fun w hw => lt_of_lt_of_le (hc.blkO w hw) (hn w hw), hc.same, hc.disj⟩

/-- from `I` or `O` to `O` -/
theorem MCompat.last {comm : Comm} {space : ℕ → ℕ} {inpl : Prop} {I O : ℕ → Ptr} {st : Dist} (hc : MCompat comm space inpl I O st) (pre : Bool) :
    MCompat comm space (pre = true ∨ inpl) (sel pre I O) O st := by
  cases pre with
  | true => exact ⟨hc.blkO, hc.blkO, fun _ w _ => rfl, fun hn => absurd (Or.inl rfl) hn⟩
  | false => exact ⟨hc.blkI, hc.blkO, fun hs w hw => hc.same (by simpa using hs) w hw, fun hs w hw => hc.disj (by simpa using hs) w hw⟩

theorem MCompat.symm {comm : Comm} {space : ℕ → ℕ} {inpl : Prop} {I O : ℕ → Ptr} {st : Dist} (h1 : MCompat comm space inpl I O st) : MCompat comm space inpl O I st :=
  ⟨h1.blkO, h1.blkI, fun hs w hw => (h1.same hs w hw).symm, fun hs w hw x hx y hy e => h1.disj hs w hw y hy x hx e.symm⟩

/-- from `I` to `I` or `O` -/
theorem MCompat.first {comm : Comm} {space : ℕ → ℕ} {inpl : Prop} {I O : ℕ → Ptr} {st : Dist} (hc : MCompat comm space inpl I O st) (pre : Bool) :
    MCompat comm space (pre = false ∨ inpl) I (sel pre I O) st := by
  cases pre with
  | false => exact ⟨hc.blkI, hc.blkI, fun _ w _ => rfl, fun hn => absurd (Or.inl rfl) hn⟩
  | true => exact ⟨hc.blkI, hc.blkO, fun hs w hw => hc.same (by simpa using hs) w hw, fun hs w hw => hc.disj (by simpa using hs) w hw⟩

theorem MApart.last {comm : Comm} {space : ℕ → ℕ} {inpl : Prop} {I O : ℕ → Ptr} (h : MApart comm space inpl I O) (pre : Bool) :
    MApart comm space (pre = true ∨ inpl) (sel pre I O) O := by
  cases pre with
  | true => exact ⟨fun _ w _ => rfl, fun hn => absurd (Or.inl rfl) hn, fun hn => absurd (Or.inl rfl) hn⟩
  | false => exact ⟨fun hs w hw => h.same (by simpa using hs) w hw, fun hs w hw => h.disj (by simpa using hs) w hw, fun hs w hw => h.ne (by simpa using hs) w hw⟩

theorem MApart.first {comm : Comm} {space : ℕ → ℕ} {inpl : Prop} {I O : ℕ → Ptr} (h : MApart comm space inpl I O) (pre : Bool) :
    MApart comm space (pre = false ∨ inpl) I (sel pre I O) := by
  cases pre with
  | false => exact ⟨fun _ w _ => rfl, fun hn => absurd (Or.inl rfl) hn, fun hn => absurd (Or.inl rfl) hn⟩
  | true => exact ⟨fun hs w hw => h.same (by simpa using hs) w hw, fun hs w hw => h.disj (by simpa using hs) w hw, fun hs w hw => h.ne (by simpa using hs) w hw⟩

theorem MApart.symm {comm : Comm} {space : ℕ → ℕ} {inpl : Prop} {I O : ℕ → Ptr} (h : MApart comm space inpl I O) : MApart comm space inpl O I :=
  ⟨fun hs w hw => (h.same hs w hw).symm, fun hs w hw x hx y hy e => h.disj hs w hw y hy x hx e.symm, fun hs w hw e => h.ne hs w hw e.symm⟩

theorem MApart.iff {comm : Comm} {space : ℕ → ℕ} {inpl : Prop} {I O : ℕ → Ptr} (h : MApart comm space inpl I O) {w : ℕ} (hw : w ∈ comm) : I w = O w ↔ inpl :=
  ⟨fun e => by by_contra hn; exact h.ne hn w hw e, fun hs => h.same hs w hw⟩

theorem MFrame.to {comm : Comm} {space : ℕ → ℕ} {nd : Bool} {I O P Q : ℕ → Ptr} {st st' : Dist} (h : MFrame comm space nd P Q st st')
    (hP : ∀ w, P w = O w ∨ P w = I w) (hQ : ∀ w, Q w = O w ∨ (nd = false ∧ Q w = I w)) : MFrame comm space nd I O st st' := by
  refine ⟨h.other, fun w hw => (h.frame w hw).mono ?_⟩
  rintro q _ (⟨x, hx, e⟩ | ⟨hn, x, hx, e⟩)
  · rcases hQ w with h1 | ⟨hn, h1⟩
    · exact Or.inl ⟨x, hx, by rw [e, h1]⟩
    · exact Or.inr ⟨hn, x, hx, by rw [e, h1]⟩
  · rcases hP w with h1 | h1
    · exact Or.inl ⟨x, hx, by rw [e, h1]⟩
    · exact Or.inr ⟨hn, x, hx, by rw [e, h1]⟩

theorem MFrame.trans {comm : Comm} {space : ℕ → ℕ} {nd : Bool} {I O : ℕ → Ptr} {s1 s2 s3 : Dist} (h : MFrame comm space nd I O s1 s2) (h2 : MFrame comm space nd I O s2 s3) :
    MFrame comm space nd I O s1 s3 :=
  ⟨fun w hw => (h2.other w hw).trans (h.other w hw), fun w hw => (h.frame w hw).trans (h2.frame w hw) (fun _ _ h => h) (fun _ _ h => h)⟩

theorem sel_P (pre : Bool) (I O : ℕ → Ptr) (w : ℕ) : sel pre I O w = O w ∨ sel pre I O w = I w := by cases pre <;> simp [sel]
theorem sel_Q {pre nd : Bool} (h : pre = false → nd = false) (I O : ℕ → Ptr) (w : ℕ) : sel pre I O w = O w ∨ (nd = false ∧ sel pre I O w = I w) := by
  cases pre with
  | true => left; rfl
  | false => right; exact ⟨h rfl, rfl⟩

/-- all processes transform their local data -/
theorem stage {comm : Comm} {space : ℕ → ℕ} (hnd : comm.Nodup) {a b : ℕ → List (ℕ × ℕ)} {N : ℕ → ℕ} (hf : ∀ me < comm.length, Fits (zst (a me ++ b me)) (N me))
    (hr : ∀ me < comm.length, N me * 2 ≤ space (comm.at me)) {nd bwd : Bool} {P0 Q0 P Q : ℕ → Ptr} {inpl : Prop} (h0 : MApart comm space inpl P0 Q0) {st : Dist}
    (hc : MCompat comm space inpl P Q st) {c : ℕ → Plan}
    (h : ∀ me < comm.length, ∀ x, some (dftPr bwd (dbl (a me)) (dbl (b me)) (P0 (comm.at me)) (Q0 (comm.at me))) = some x → FFTW.Sound nd x (c me)) :
    MFrame comm space nd P Q st (comm.run (fun me => applyDft bwd (c me) (P (comm.at me)) (Q (comm.at me))) st) ∧
    ∀ me < comm.length, ∀ k, Index ((a me).map Prod.fst) k → ∀ u, Index ((b me).map Prod.fst) u →
      cval bwd (comm.run (fun me => applyDft bwd (c me) (P (comm.at me)) (Q (comm.at me))) st (comm.at me)).mem (Q (comm.at me)) (lin (a me) k + lin (b me) u) =
        dftSum ((a me).map Prod.fst) k fun j => cval bwd (st (comm.at me)).mem (P (comm.at me)) (lin (a me) j + lin (b me) u) := by
  have key : ∀ me < comm.length, _ := fun me hme => local_dft (hf me hme) (h me hme _ rfl) (hc.blkI _ (at_mem hme)) (hc.blkO _ (at_mem hme))
    (fun e => hc.same ((h0.iff (at_mem hme)).1 e) _ (at_mem hme))
    (fun e => Far.mono (hc.disj (fun hs => e ((h0.iff (at_mem hme)).2 hs)) _ (at_mem hme)) (by have := hr me hme; omega))
  refine ⟨mframe (fun w hw => run_other hw _ _) fun me hme => ?_, fun me hme => ?_⟩
  · rw [run_at hnd hme]
    exact (key me hme).1.mono fun q _ hq => PW.mono hq (by have := hr me hme; omega)
  · rw [run_at hnd hme]
    exact (key me hme).2

theorem stage_kosher {comm : Comm} {space : ℕ → ℕ} {a b : ℕ → List (ℕ × ℕ)} {N : ℕ → ℕ} (hf : ∀ me < comm.length, Fits (zst (a me ++ b me)) (N me))
    (hp : ∀ me < comm.length, ∀ e ∈ a me, 0 < e.1)
    (hr : ∀ me < comm.length, N me * 2 ≤ space (comm.at me)) {bwd : Bool} {P0 Q0 : ℕ → Ptr} {inpl : Prop} (h0 : MApart comm space inpl P0 Q0) :
    ∀ me < comm.length, ∀ x, some (dftPr bwd (dbl (a me)) (dbl (b me)) (P0 (comm.at me)) (Q0 (comm.at me))) = some x → Kosher x := by
  intro me hme x hx
  obtain rfl := Option.some.inj hx
  exact kosher_dftPr (hf me hme) (hp me hme) fun hne => Far.mono (h0.disj (fun hs => hne ((h0.iff (at_mem hme)).2 hs)) _ (at_mem hme)) (by have := hr me hme; omega)

/-- transpositions move complex numbers -/
theorem tok_elt {nx ny m block tblock : ℕ} {I0 O0 I O : ℕ → Ptr} {comm : Comm} {space : ℕ → ℕ} {nd bwd : Bool} {f : MPlan} {st : Dist}
    (h : TOK nd (mkTrans nx ny (m * 2) I0 O0 block tblock comm {} space) f) (hc : MCompat comm space (I0 (comm.at 0) = O0 (comm.at 0)) I O st) :
    MFrame comm space nd I O st (f I O st) ∧ ∀ i < nx, ∀ j < ny, ∀ u < m,
      elt bwd m comm O (f I O st) (j / tblock, j % tblock * nx + i) u = elt bwd m comm I st (i / block, i % block * ny + j) u := by
  obtain ⟨h1, h2⟩ := tok_raw h I O st hc
  refine ⟨h1, fun i hi j hj u hu => ?_⟩
  have key : ∀ e : ℕ, e < 2 → (f I O st (comm.at (j / tblock))).mem (O (comm.at (j / tblock)) + ((((j % tblock * nx + i) * m + u) * 2 : ℕ) : ℤ) + (e : ℤ)) =
      (st (comm.at (i / block))).mem (I (comm.at (i / block)) + ((((i % block * ny + j) * m + u) * 2 : ℕ) : ℤ) + (e : ℤ)) := by
    intro e he
    have := h2 i hi j hj (u * 2 + e) (show u * 2 + e < m * 2 by omega)
    have e1 : (rawT nx ny (m * 2) I0 O0 block tblock comm {} space).outOff i j (u * 2 + e) = ((j % tblock * nx + i) * m + u) * 2 + e := by
      show (j % tblock * nx + i) * (m * 2) + (u * 2 + e) = _
      ring
    have e2 : (rawT nx ny (m * 2) I0 O0 block tblock comm {} space).inOff i j (u * 2 + e) = ((i % block * ny + j) * m + u) * 2 + e := by
      show (i % block * ny + j) * (m * 2) + (u * 2 + e) = _
      ring
    rw [e1, e2] at this
    rw [Ptr.add_add, Ptr.add_add, ← Nat.cast_add, ← Nat.cast_add]
    exact this
  have k0 := key 0 (by omega)
  have k1 := key 1 (by omega)
  simp only [Nat.cast_zero, Ptr.add_zero, Nat.cast_one] at k0 k1
  unfold elt
  simp only
  rw [k0, k1]

end FFTW.Mpi
