import Verif.Proofs.MpiPost

/-! the local transposition after the exchange is right -/

namespace FFTW.Mpi
open Tensor Spec RdftS
variable [CLib]
variable {p : TransP}

/-- where a process has an element after the exchange -/
def TransP.mid (p : TransP) (me i yl v : ℕ) : ℕ :=
  i / p.block * (p.block * p.bt me) * p.vn + ((yl * p.b (i / p.block) + i % p.block) * p.vn + v)
/-- where it has it in the end -/
def TransP.outL (p : TransP) (me i yl v : ℕ) : ℕ :=
  if p.flags.transposedOut then (i * p.bt me + yl) * p.vn + v else (yl * p.nx + i) * p.vn + v

theorem lin_lt {a b n m : ℕ} (h : a < n) (h2 : b < m) : a * m + b < n * m := by
  have : (a + 1) * m ≤ n * m := Nat.mul_le_mul_right _ h
  have e : (a + 1) * m = a * m + m := by ring
  omega

theorem lin_inj {a b a' b' m : ℕ} (h : b < m) (h' : b' < m) (e : a * m + b = a' * m + b') : a = a' ∧ b = b' := by
  have hm : 0 < m := by omega
  have e1 : (a * m + b) / m = a := by rw [Nat.add_comm, Nat.add_mul_div_right _ _ hm, Nat.div_eq_of_lt h]; omega
  have e2 : (a' * m + b') / m = a' := by rw [Nat.add_comm, Nat.add_mul_div_right _ _ hm, Nat.div_eq_of_lt h']; omega
  have : a = a' := by rw [← e1, ← e2, e]
  subst this
  exact ⟨rfl, by omega⟩

theorem ptr_cancel {P Q : Ptr} {a : ℤ} (h : P + a = Q + a) : P = Q := by
  have h1 := congrArg Ptr.blk h
  have h2 : P.off + a = Q.off + a := congrArg Ptr.off h
  exact Ptr.ext h1 (by omega)

theorem In.inj {P : Ptr} {n x : ℕ} : In P n (P + (x : ℤ)) ↔ x < n := by
  constructor
  · rintro ⟨y, hy, e⟩
    have := (ptr_add_right_inj P).1 e
    omega
  · exact fun h => ⟨x, h, rfl⟩

theorem In.shift {P : Ptr} {n k : ℕ} {q : Ptr} (h : In (P + (k : ℤ)) n q) : ∃ x, k ≤ x ∧ x < k + n ∧ q = P + (x : ℤ) := by
  obtain ⟨x, hx, e⟩ := h
  exact ⟨k + x, by omega, by omega, by rw [e, Ptr.add_add]; push_cast; rfl⟩

theorem b_full (hb : 0 < p.block) {q : ℕ} (h : q < p.nxb) : p.b q = p.block := by
  unfold TransP.b
  rw [block_eq]
  have h1 := nx_eq p
  have h2 : (q + 1) * p.block ≤ p.nxb * p.block := Nat.mul_le_mul_right _ h
  have e : (q + 1) * p.block = q * p.block + p.block := by ring
  omega


theorem b_last (hb : 0 < p.block) : p.b p.nxb = p.nxr := by
  unfold TransP.b
  rw [block_eq]
  have h1 := nx_eq p
  have := nxr_lt hb
  omega

/-- rows are in a full block, or among the leftover rows -/
theorem row_cases (hb : 0 < p.block) {i : ℕ} (hi : i < p.nx) :
    (i / p.block < p.nxb ∧ i % p.block < p.block ∧ i = i / p.block * p.block + i % p.block) ∨
      (i / p.block = p.nxb ∧ i % p.block < p.nxr ∧ i = p.nxb * p.block + i % p.block) := by
  have h1 := Nat.mod_lt i hb
  have h2 := Nat.div_add_mod i p.block
  have e : i / p.block * p.block = p.block * (i / p.block) := Nat.mul_comm _ _
  rcases lt_or_ge (i / p.block) p.nxb with h | h
  · exact Or.inl ⟨h, h1, by omega⟩
  · right
    have h3 : i / p.block ≤ p.nxb := Nat.div_le_div_right (by omega)
    have h4 : i / p.block = p.nxb := by omega
    have h5 := nx_eq p
    rw [h4] at e h2
    exact ⟨h4, by omega, by omega⟩

/-- plans for the three steps -/
structure PostOk (p : TransP) (nd : Bool) (P0 Q0 : Ptr) (me : ℕ) (c : Post) : Prop where
  cld2 : Sound nd (rdft0 (cld2Dims p (direct p P0 Q0) me) P0 Q0) (c.cld2 me)
  rest : hasRest p (direct p P0 Q0) = true →
    Sound nd (rdft0 (restDims p (direct p P0 Q0) me) (P0 + (restIoff p me : ℤ)) (Q0 + (restOoff p (direct p P0 Q0) me : ℤ))) (c.rest me)
  cld3 : hasCld3 p (direct p P0 Q0) = true → Sound nd (rdft0 (cld3Dims p me) Q0 Q0) (c.cld3 me)

/-- arrays of `n` numbers do not overlap -/
def Far (P Q : Ptr) (n : ℕ) : Prop := ∀ x < n, ∀ y < n, P + (x : ℤ) ≠ Q + (y : ℤ)

/-- the writable part of the local steps -/
def PW (nd : Bool) (P Q : Ptr) (n : ℕ) (q : Ptr) : Prop := In Q n q ∨ (nd = false ∧ In P n q)

theorem post_empty {nd : Bool} {P0 Q0 : Ptr} {me : ℕ} {c : Post} (h : PostOk p nd P0 Q0 me c) (hbt : p.bt me = 0)
    {P Q : Ptr} {st : State} (bP : P.blk < st.next) (bQ : Q.blk < st.next) :
    Frame st (Post.apply p c (direct p P0 Q0) me P Q st) (fun _ => False) := by
  have f2 : Frame st ((c.cld2 me).rdftApply P Q st) (fun _ => False) := by
    refine copy_empty (pairs_zero ?_) h.cld2 bP bQ
    unfold cld2Dims
    split
    · exact ⟨_, List.Mem.tail _ (List.Mem.head _), hbt⟩
    · exact ⟨_, List.Mem.tail _ (List.Mem.head _), hbt⟩
  unfold Post.apply
  simp only
  split
  · rename_i hr
    have fr := copy_empty (P := P + (restIoff p me : ℤ)) (Q := Q + (restOoff p (direct p P0 Q0) me : ℤ))
      (st := (c.cld2 me).rdftApply P Q st) (pairs_zero (by
        unfold restDims
        split
        · exact ⟨_, List.Mem.head _, hbt⟩
        · exact ⟨_, List.Mem.head _, hbt⟩)) (h.rest hr)
      (lt_of_lt_of_le bP f2.next) (lt_of_lt_of_le bQ f2.next)
    have f23 : Frame st _ (fun _ => False) := f2.trans fr (fun _ _ h => h) (fun _ _ h => h)
    split
    · rename_i h3
      exact f23.trans (copy_empty (P := Q) (Q := Q) (pairs_zero (by
        unfold cld3Dims
        exact ⟨_, List.Mem.tail _ (List.Mem.head _), hbt⟩)) (h.cld3 h3) (lt_of_lt_of_le bQ f23.next) (lt_of_lt_of_le bQ f23.next)) (fun _ _ h => h) (fun _ _ h => h)
    · exact f23
  · exact f2

theorem restIoff_le (me : ℕ) : restIoff p me ≤ p.nout me := by rw [nout_eq]; omega

/-- `direct`, in place: one transposition -/
theorem post_direct_in {nd : Bool} {P0 : Ptr} {me : ℕ} {c : Post} (h : PostOk p nd P0 P0 me c) (hd : direct p P0 P0 = true) (hb : 0 < p.block)
    {P : Ptr} {st : State} (bP : P.blk < st.next) :
    Frame st (Post.apply p c (direct p P0 P0) me P P st) (PW nd P P (p.nout me)) ∧
      ∀ i < p.nx, ∀ yl < p.bt me, ∀ v < p.vn,
        (Post.apply p c (direct p P0 P0) me P P st).mem (P + (p.outL me i yl v : ℤ)) = st.mem (P + (p.mid me i yl v : ℤ)) := by
  have hto : p.flags.transposedOut = false := by
    unfold direct at hd; simp at hd; exact hd.1
  have hxr : p.nxr = 0 := by
    unfold direct at hd; simp at hd; exact hd.2
  have h2 := h.cld2
  rw [hd] at h2 ⊢
  obtain ⟨f, g⟩ := copy_ok' (cld2_copy true me) h2 bP bP (fun _ => rfl) (fun h => absurd rfl h)
  have e : Post.apply p c true me P P st = (c.cld2 me).rdftApply P P st := by
    unfold Post.apply hasRest
    simp [hxr]
  rw [e]
  constructor
  · refine f.mono ?_
    rintro q _ (hq | ⟨hn, x, hx, hq⟩)
    · exact Or.inl hq
    · exact Or.inr ⟨hn, x, lt_of_lt_of_le hx (restIoff_le me), hq⟩
  · intro i hi yl hy v hv
    rcases row_cases hb hi with ⟨a1, a2, a3⟩ | ⟨a1, a2, a3⟩
    · have := g _ (cld2_pair_true (p := p) (me := me) a1 hy a2 hv)
      unfold TransP.outL TransP.mid
      rw [hto, if_neg (by decide), b_full hb a1]
      rw [← a3] at this
      exact this
    · omega

/-- `direct`, out of place -/
theorem post_direct_out {nd : Bool} {P0 Q0 : Ptr} {me : ℕ} {c : Post} (h : PostOk p nd P0 Q0 me c) (hd : direct p P0 Q0 = true) (hb : 0 < p.block)
    (hv0 : 0 < p.vn) (hbt : 0 < p.bt me)
    (hne : P0 ≠ Q0) (h0 : Far P0 Q0 (p.nout me)) {P Q : Ptr} (hf : Far P Q (p.nout me)) {st : State} (bP : P.blk < st.next) (bQ : Q.blk < st.next) :
    Frame st (Post.apply p c (direct p P0 Q0) me P Q st) (PW nd P Q (p.nout me)) ∧
      ∀ i < p.nx, ∀ yl < p.bt me, ∀ v < p.vn,
        (Post.apply p c (direct p P0 Q0) me P Q st).mem (Q + (p.outL me i yl v : ℤ)) = st.mem (P + (p.mid me i yl v : ℤ)) := by
  have hto : p.flags.transposedOut = false := by
    unfold direct at hd; simp at hd; exact hd.1
  have h2 := h.cld2
  have h3 := h.rest
  rw [hd] at h2 h3 ⊢
  have hle := restIoff_le (p := p) me
  obtain ⟨f, g⟩ := copy_ok' (cld2_copy true me) h2 bP bQ (fun e => absurd e hne) (fun _ x hx y hy => hf x (by omega) y hy)
  simp only [if_true] at f
  have f' : Frame st ((c.cld2 me).rdftApply P Q st) (PW nd P Q (p.nout me)) := by
    refine f.mono ?_
    rintro q _ (hq | ⟨hn, x, hx, hq⟩)
    · exact Or.inl hq
    · exact Or.inr ⟨hn, x, by omega, hq⟩
  have hval : ∀ i < p.nx, ∀ yl < p.bt me, ∀ v < p.vn, i / p.block < p.nxb →
      ((c.cld2 me).rdftApply P Q st).mem (Q + (p.outL me i yl v : ℤ)) = st.mem (P + (p.mid me i yl v : ℤ)) := by
    intro i hi yl hy v hv hlt
    rcases row_cases hb hi with ⟨a1, a2, a3⟩ | ⟨a1, a2, a3⟩
    · have := g _ (cld2_pair_true (p := p) (me := me) a1 hy a2 hv)
      unfold TransP.outL TransP.mid
      rw [hto, if_neg (by decide), b_full hb a1]
      rw [← a3] at this
      exact this
    · omega
  by_cases hxr : p.nxr = 0
  · have e : Post.apply p c true me P Q st = (c.cld2 me).rdftApply P Q st := by
      unfold Post.apply hasRest
      simp [hxr]
    rw [e]
    refine ⟨f', fun i hi yl hy v hv => hval i hi yl hy v hv ?_⟩
    rcases row_cases hb hi with ⟨a1, a2, a3⟩ | ⟨a1, a2, a3⟩
    · exact a1
    · omega
  · have hr : hasRest p true = true := by unfold hasRest; simp; omega
    have e : Post.apply p c true me P Q st = (c.rest me).rdftApply (P + (restIoff p me : ℤ)) (Q + (restOoff p true me : ℤ)) ((c.cld2 me).rdftApply P Q st) := by
      unfold Post.apply
      simp only [hr, if_true]
      have : hasCld3 p true = false := by unfold hasCld3; rfl
      rw [this]; simp
    have hpos : 0 < p.bt me * p.nxr * p.vn := Nat.mul_pos (Nat.mul_pos hbt (by omega)) hv0
    have hlt : restIoff p me < p.nout me := by rw [nout_eq]; omega
    have hlt' : restOoff p true me < p.nout me := by
      have h1 : p.nxb * (p.block * p.vn) + p.nxr * p.vn = p.nx * p.vn := by rw [nx_eq p]; ring
      have h2 : 1 * (p.nx * p.vn) ≤ p.bt me * (p.nx * p.vn) := Nat.mul_le_mul_right _ hbt
      have h3 : p.bt me * (p.nx * p.vn) = p.nout me := by unfold TransP.nout; ring
      have h4 : 0 < p.nxr * p.vn := Nat.mul_pos (by omega) hv0
      unfold restOoff
      simp only [if_true]
      omega
    obtain ⟨fr, gr⟩ := copy_ok (P := P + (restIoff p me : ℤ)) (Q := Q + (restOoff p true me : ℤ)) (rest_copy true me) (h3 hr)
      (lt_of_lt_of_le bP f.next) (lt_of_lt_of_le bQ f.next)
      (fun e => absurd e (h0 _ hlt _ hlt'))
      (fun _ x hx y hy => by
        rw [Ptr.add_add, Ptr.add_add]
        have := hf (restIoff p me + x) (by omega) (restOoff p true me + y) (by omega)
        push_cast at this
        exact this)
    have hcp := rest_copy (p := p) true me
    rw [e]
    constructor
    · refine f'.trans fr (fun _ _ h => h) ?_
      rintro q _ (⟨b, hb', hq⟩ | ⟨hn, a, ha, hq⟩)
      · obtain ⟨b0, b1⟩ := hcp.o.bounds b hb'
        refine Or.inl ⟨restOoff p true me + b.toNat, by omega, ?_⟩
        rw [hq, Ptr.add_add]; congr 1; push_cast; omega
      · obtain ⟨b0, b1⟩ := hcp.i.bounds a ha
        refine Or.inr ⟨hn, restIoff p me + a.toNat, by omega, ?_⟩
        rw [hq, Ptr.add_add]; congr 1; push_cast; omega
    · intro i hi yl hy v hv
      rcases row_cases hb hi with ⟨a1, a2, a3⟩ | ⟨a1, a2, a3⟩
      · have hout : p.outL me i yl v < p.nout me := by
          unfold TransP.outL TransP.nout
          rw [hto, if_neg (by decide)]
          have h1 := lin_lt hy hi
          have h2 := lin_lt h1 hv
          rwa [Nat.mul_comm (p.bt me)] at h2
        rw [fr.mem _ (by rw [Ptr.add_blk]; exact lt_of_lt_of_le bQ f.next) ?_, hval i hi yl hy v hv a1]
        rintro (⟨b, hb', hq⟩ | ⟨hn, a, ha, hq⟩)
        · rw [Ptr.add_add, ptr_add_right_inj] at hq
          obtain ⟨k, hk, c', hc', e1⟩ := mem_outs_cons.1 hb'
          obtain ⟨b0, hb0, c2, hc2, e2⟩ := mem_outs_cons.1 hc'
          have hc3 : c2 = 0 := by simpa [outs, offs] using hc2
          subst hc3
          simp only [mul_one, add_zero] at e2
          subst e2
          unfold TransP.outL restOoff at hq
          rw [hto, if_neg (by decide)] at hq
          simp only [if_true] at hq e1
          have hk' : k < p.bt me := hk
          have hb0' : b0 < p.nxr * p.vn := hb0
          have e3 : yl * (p.nx * p.vn) + (i * p.vn + v) = k * (p.nx * p.vn) + (p.nxb * p.block * p.vn + b0) := by
            zify
            rw [e1] at hq
            push_cast at hq ⊢
            linarith
          have h4 : p.nxb * p.block * p.vn + p.nxr * p.vn = p.nx * p.vn := by rw [nx_eq p]; ring
          obtain ⟨_, e4⟩ := lin_inj (by have := lin_lt hi hv; omega) (by omega) e3
          have h5 : (i + 1) * p.vn ≤ (p.nxb * p.block) * p.vn := by
            refine Nat.mul_le_mul_right _ ?_
            have : (i / p.block + 1) * p.block ≤ p.nxb * p.block := Nat.mul_le_mul_right _ a1
            have e5 : (i / p.block + 1) * p.block = i / p.block * p.block + p.block := by ring
            omega
          have h6 : (i + 1) * p.vn = i * p.vn + p.vn := by ring
          omega
        · obtain ⟨b0, b1⟩ := hcp.i.bounds a ha
          have := hf (restIoff p me + a.toNat) (by omega) _ hout
          rw [hq, Ptr.add_add] at this
          apply this
          congr 1; push_cast; omega
      · have h5 := gr _ (rest_pair_true (p := p) (me := me) hy a2 hv)
        simp only [Ptr.add_add] at h5
        have e1 : ((restOoff p true me : ℕ) : ℤ) + (((yl * p.nx + i % p.block) * p.vn + v : ℕ) : ℤ) = (p.outL me i yl v : ℤ) := by
          unfold TransP.outL restOoff
          rw [hto, if_pos rfl, if_neg (by decide)]
          have e3 : (yl * p.nx + i) * p.vn + v = p.nxb * (p.block * p.vn) + ((yl * p.nx + i % p.block) * p.vn + v) := by
            conv_lhs => rw [a3]
            ring
          rw [e3]; push_cast; ring
        have e2 : p.mid me i yl v = restIoff p me + ((yl * p.nxr + i % p.block) * p.vn + v) := by
          unfold TransP.mid restIoff
          rw [a1, b_last hb]
          ring
        rw [e1] at h5
        rw [h5, e2]
        push_cast
        refine f.mem _ (by rw [Ptr.add_blk]; exact bP) ?_
        have hin : restIoff p me + ((yl * p.nxr + i % p.block) * p.vn + v) < p.nout me := by
          rw [nout_eq]
          have := lin_lt (lin_lt hy a2) hv
          omega
        rintro (⟨y, hy', hq⟩ | ⟨hn, y, hy', hq⟩)
        · refine hf _ hin y hy' ?_
          rw [← hq]; push_cast; rfl
        · rw [ptr_add_right_inj] at hq
          zify at hy'
          have : (0 : ℤ) ≤ (((yl * p.nxr + i % p.block) * p.vn + v : ℕ) : ℤ) := Int.natCast_nonneg _
          push_cast at this
          omega

/-- not `direct`: block by block, then (unless the output is to be transposed) all of it in place -/
theorem post_indirect {nd : Bool} {P0 Q0 : Ptr} {me : ℕ} {c : Post} (h : PostOk p nd P0 Q0 me c) (hd : direct p P0 Q0 = false) (hb : 0 < p.block)
    {P Q : Ptr} (hs : P0 = Q0 → P = Q) (hf : P0 ≠ Q0 → Far P Q (p.nout me)) {st : State} (bP : P.blk < st.next) (bQ : Q.blk < st.next) :
    Frame st (Post.apply p c (direct p P0 Q0) me P Q st) (PW nd P Q (p.nout me)) ∧
      ∀ i < p.nx, ∀ yl < p.bt me, ∀ v < p.vn,
        (Post.apply p c (direct p P0 Q0) me P Q st).mem (Q + (p.outL me i yl v : ℤ)) = st.mem (P + (p.mid me i yl v : ℤ)) := by
  have h2 := h.cld2
  have h3 := h.rest
  have h4 := h.cld3
  rw [hd] at h2 h3 h4 ⊢
  have hle := restIoff_le (p := p) me
  obtain ⟨f, g⟩ := copy_ok' (cld2_copy false me) h2 bP bQ hs (fun hne x hx y hy => hf hne x (by omega) y (by simp at hy; omega))
  simp only [Bool.false_eq_true, if_false] at f
  have hO : restOoff p false me = restIoff p me := by unfold restOoff restIoff; simp
  have hr : hasRest p false = true := by unfold hasRest; simp
  have hcp := rest_copy (p := p) false me
  rw [hO] at hcp
  have h3 := h3 hr
  rw [hO] at h3
  obtain ⟨fr, gr⟩ := copy_ok' (P := P + (restIoff p me : ℤ)) (Q := Q + (restIoff p me : ℤ)) hcp h3
      (lt_of_lt_of_le bP f.next) (lt_of_lt_of_le bQ f.next)
      (fun e => by rw [hs (ptr_cancel e)])
      (fun hne x hx y hy => by
        rw [Ptr.add_add, Ptr.add_add]
        have := hf (fun e => hne (by rw [e])) (restIoff p me + x) (by omega) (restIoff p me + y) (by omega)
        push_cast at this
        exact this)
  have f' : Frame st ((c.cld2 me).rdftApply P Q st) (PW nd P Q (p.nout me)) := by
    refine f.mono ?_
    rintro q _ (⟨x, hx, hq⟩ | ⟨hn, x, hx, hq⟩)
    · exact Or.inl ⟨x, by omega, hq⟩
    · exact Or.inr ⟨hn, x, by omega, hq⟩
  generalize hst1 : (c.cld2 me).rdftApply P Q st = st1 at *
  generalize hst2 : (c.rest me).rdftApply (P + (restIoff p me : ℤ)) (Q + (restIoff p me : ℤ)) st1 = st2 at *
  have e : Post.apply p c false me P Q st = if p.flags.transposedOut then st2 else (c.cld3 me).rdftApply Q Q st2 := by
    unfold Post.apply
    simp only [hr, if_true]
    rw [hO, hst1, hst2]
    unfold hasCld3
    cases p.flags.transposedOut <;> simp
  rw [e]
  have f2 : Frame st st2 (PW nd P Q (p.nout me)) := by
    refine f'.trans fr (fun _ _ h => h) ?_
    rintro q _ (hq | ⟨hn, hq⟩)
    · obtain ⟨x, x1, x2, hq⟩ := hq.shift
      exact Or.inl ⟨x, by omega, hq⟩
    · obtain ⟨x, x1, x2, hq⟩ := hq.shift
      exact Or.inr ⟨hn, x, by omega, hq⟩
  have hval : ∀ i < p.nx, ∀ yl < p.bt me, ∀ v < p.vn,
      st2.mem (Q + (((i * p.bt me + yl) * p.vn + v : ℕ) : ℤ)) = st.mem (P + (p.mid me i yl v : ℤ)) := by
    intro i hi yl hy v hv
    rcases row_cases hb hi with ⟨a1, a2, a3⟩ | ⟨a1, a2, a3⟩
    · have h5 := g _ (cld2_pair_false (p := p) (me := me) a1 hy a2 hv)
      rw [← a3] at h5
      have hlt : (i * p.bt me + yl) * p.vn + v < restIoff p me := by
        have k1 : i < p.nxb * p.block := by
          have : (i / p.block + 1) * p.block ≤ p.nxb * p.block := Nat.mul_le_mul_right _ a1
          have e5 : (i / p.block + 1) * p.block = i / p.block * p.block + p.block := by ring
          omega
        have := lin_lt (lin_lt k1 hy) hv
        unfold restIoff
        have e6 : p.nxb * p.block * p.bt me * p.vn = p.nxb * p.bt me * (p.block * p.vn) := by ring
        omega
      rw [fr.mem _ (by rw [Ptr.add_blk]; exact lt_of_lt_of_le bQ f.next) ?_]
      · rw [h5]
        unfold TransP.mid
        rw [b_full hb a1]
      · rintro (hq | ⟨hn, hq⟩)
        · obtain ⟨x, x1, x2, hq⟩ := hq.shift
          rw [ptr_add_right_inj] at hq
          omega
        · obtain ⟨x, x1, x2, hq⟩ := hq.shift
          by_cases hne : P0 = Q0
          · rw [hs hne, ptr_add_right_inj] at hq
            omega
          · exact hf hne x (by omega) _ (by omega) hq.symm
    · have h5 := gr _ (rest_pair_false (p := p) (me := me) hy a2 hv)
      simp only [Ptr.add_add] at h5
      have e1 : ((restIoff p me : ℕ) : ℤ) + (((i % p.block * p.bt me + yl) * p.vn + v : ℕ) : ℤ) = (((i * p.bt me + yl) * p.vn + v : ℕ) : ℤ) := by
        unfold restIoff
        have e3 : (i * p.bt me + yl) * p.vn + v = p.nxb * p.bt me * (p.block * p.vn) + ((i % p.block * p.bt me + yl) * p.vn + v) := by
          conv_lhs => rw [a3]
          ring
        rw [e3]; push_cast; ring
      have e2 : p.mid me i yl v = restIoff p me + ((yl * p.nxr + i % p.block) * p.vn + v) := by
        unfold TransP.mid restIoff
        rw [a1, b_last hb]
        ring
      rw [e1] at h5
      rw [h5, e2]
      have hin : restIoff p me + ((yl * p.nxr + i % p.block) * p.vn + v) < p.nout me := by
        rw [nout_eq]
        have := lin_lt (lin_lt hy a2) hv
        omega
      rw [← Nat.cast_add]
      refine f.mem _ (by rw [Ptr.add_blk]; exact bP) ?_
      rintro (⟨y, hy', hq⟩ | ⟨hn, hq⟩)
      · by_cases hne : P0 = Q0
        · rw [hs hne, ptr_add_right_inj] at hq
          omega
        · exact hf hne _ hin y (by omega) hq
      · rw [In.inj] at hq
        omega
  cases hto : p.flags.transposedOut with
  | true =>
    rw [if_pos rfl]
    refine ⟨f2, fun i hi yl hy v hv => ?_⟩
    rw [← hval i hi yl hy v hv]
    unfold TransP.outL
    rw [hto, if_pos rfl]
  | false =>
    rw [if_neg (by decide)]
    have h4 := h4 (by unfold hasCld3; rw [hto]; rfl)
    obtain ⟨f3, g3⟩ := copy_ok' (P := Q) (Q := Q) (cld3_copy me) h4 (lt_of_lt_of_le bQ f2.next) (lt_of_lt_of_le bQ f2.next) (fun _ => rfl) (fun h => absurd rfl h)
    constructor
    · refine f2.trans f3 (fun _ _ h => h) ?_
      rintro q _ (hq | ⟨hn, hq⟩)
      · exact Or.inl hq
      · exact Or.inl hq
    · intro i hi yl hy v hv
      rw [← hval i hi yl hy v hv, ← g3 _ (cld3_pair (p := p) (me := me) hi hy hv)]
      unfold TransP.outL
      rw [hto, if_neg (by decide)]

/-- the local transposition after the exchange -/
theorem post_ok {nd : Bool} {P0 Q0 : Ptr} {me : ℕ} {c : Post} (h : PostOk p nd P0 Q0 me c) (hb : 0 < p.block) (hv0 : 0 < p.vn)
    {P Q : Ptr} (h0 : P0 ≠ Q0 → Far P0 Q0 (p.nout me)) (hs : P0 = Q0 → P = Q) (hf : P0 ≠ Q0 → Far P Q (p.nout me)) {st : State}
    (bP : P.blk < st.next) (bQ : Q.blk < st.next) :
    Frame st (Post.apply p c (direct p P0 Q0) me P Q st) (PW nd P Q (p.nout me)) ∧
      ∀ i < p.nx, ∀ yl < p.bt me, ∀ v < p.vn,
        (Post.apply p c (direct p P0 Q0) me P Q st).mem (Q + (p.outL me i yl v : ℤ)) = st.mem (P + (p.mid me i yl v : ℤ)) := by
  by_cases hbt : p.bt me = 0
  · exact ⟨(post_empty h hbt bP bQ).mono (fun _ _ h => h.elim), fun i _ yl hy => by omega⟩
  cases hd : direct p P0 Q0 with
  | false => rw [← hd]; exact post_indirect h hd hb hs hf bP bQ
  | true =>
    by_cases hne : P0 = Q0
    · subst hne
      obtain rfl := hs rfl
      rw [← hd]
      exact post_direct_in h hd hb bP
    · rw [← hd]
      exact post_direct_out h hd hb hv0 (by omega) hne (h0 hne) (hf hne) bP bQ

/-- the three problems are such that the planner may be asked for them -/
theorem post_kosher {P0 Q0 : Ptr} {me : ℕ} (hb : 0 < p.block) (hv0 : 0 < p.vn) (h0 : P0 ≠ Q0 → Far P0 Q0 (p.nout me)) :
    Kosher (rdft0 (cld2Dims p (direct p P0 Q0) me) P0 Q0) ∧
      Kosher (rdft0 (restDims p (direct p P0 Q0) me) (P0 + (restIoff p me : ℤ)) (Q0 + (restOoff p (direct p P0 Q0) me : ℤ))) ∧
      Kosher (rdft0 (cld3Dims p me) Q0 Q0) := by
  have hle := restIoff_le (p := p) me
  refine ⟨kosher_rdft0 (cld2_copy _ me) (fun hne x hx y hy => h0 hne x (by omega) y (by split at hy <;> omega)),
    kosher_rdft0 (rest_copy _ me) ?_, kosher_rdft0 (cld3_copy me) (fun h => absurd rfl h)⟩
  intro hne x hx y hy
  rw [Ptr.add_add, Ptr.add_add]
  by_cases hP : P0 = Q0
  · subst hP
    exfalso
    cases hd : direct p P0 P0 with
    | false =>
      rw [hd] at hne
      apply hne
      unfold restOoff restIoff; simp
    | true =>
      have hxr : p.nxr = 0 := by unfold direct at hd; simp at hd; exact hd.2
      rw [nout_eq, hxr] at hx
      simp at hx
  · have := h0 hP (restIoff p me + x) (by omega) (restOoff p (direct p P0 Q0) me + y) (by omega)
    push_cast at this
    exact this

end FFTW.Mpi
