import Verif.Spec.MpiSound
import Verif.Model.MpiTranspose
import Verif.Proofs.MpiXchg

/-! sound MPI solvers; `mpi/transpose-alltoall.c`, `mpi/transpose-pairwise.c` are sound -/

namespace FFTW.Mpi
open Tensor Spec RdftS

theorem MMk.Good.runs {α : Type} {A : Flags → Problem → Plan → Prop} {B : Flags → MProblem → MPlan → Prop} {fl : Flags} {Q : α → Prop}
    (hA : ∀ fl x c, Kosher x → A fl x c → FFTW.Sound fl.nd x c) (hB : ∀ fl x c, MKosher fl x → B fl x c → MSound fl.nd x c)
    {m : MMk α} (h : m.Good fl Q) {a : α} (hr : m.Runs A B fl a) : Q a := by
  induction hr with
  | ret a => exact h
  | loc n p m k c a hc _ ih => exact ih (h.2 (some c) (fun c' e me hme x hx => by obtain rfl := Option.some.inj e; exact hA _ _ _ (h.1 me hme x hx) (hc me hme x hx)))
  | locNone n p m k a _ ih => exact ih (h.2 none (fun _ e => by simp at e))
  | grp n p m k c a hc _ ih => exact ih (h.2 (some c) (fun c' e me hme x hx => by obtain rfl := Option.some.inj e; exact hB _ _ _ (h.1 me hme x hx) (hc me hme x hx)))
  | grpNone n p m k a _ ih => exact ih (h.2 none (fun _ e => by simp at e))

theorem leq_and_zero {a b m : BitVec 20} (h : Planner.LEQ a b = true) (hb : b &&& m = 0) : a &&& m = 0 := by
  simp only [Planner.LEQ, decide_eq_true_eq] at h
  rw [← h, BitVec.and_assoc, hb]; simp

/-- restrictions imply `nd` -/
theorem leq_nd {fl fl' : Flags} (h : Planner.LEQ fl.l fl'.l = true) (hn : fl'.nd = false) : fl.nd = false := by
  unfold Flags.nd at *
  simp only [decide_eq_false_iff_not, ne_eq, not_not] at *
  exact leq_and_zero h hn

theorem MFrame.weakenNd {comm : Comm} {space : ℕ → ℕ} {nd nd' : Bool} {I O : ℕ → Ptr} {st st' : Dist} (h : MFrame comm space nd' I O st st') (hn : nd' = false → nd = false) :
    MFrame comm space nd I O st st' := by
  refine ⟨h.other, fun w hw => ⟨(h.frame w hw).next, fun q hb hq => (h.frame w hw).mem q hb ?_⟩⟩
  rintro (h1 | ⟨h1, h2⟩)
  · exact hq (Or.inl h1)
  · exact hq (Or.inr ⟨hn h1, h2⟩)

/-- a plan obeying more restrictions will do -/
theorem MSound.mono {nd nd' : Bool} {p : MProblem} {f : MPlan} (h : MSound nd' p f) (hn : nd' = false → nd = false) : MSound nd p f := by
  cases p with
  | transpose p => exact fun I O st hc => ⟨(h I O st hc).1.weakenNd hn, (h I O st hc).2⟩
  | dft p => exact fun I O st hc => ⟨(h I O st hc).1.weakenNd hn, (h I O st hc).2⟩
  | rdft p => exact fun I O st hc => ⟨(h I O st hc).1.weakenNd hn, (h I O st hc).2⟩

/-- more restrictions make more problems admissible -/
theorem MKosher.mono {fl fl' : Flags} {p : MProblem} (h : MKosher fl p) (hl : Planner.LEQ fl.l fl'.l = true) : MKosher fl' p := by
  cases p with
  | transpose p => exact h
  | dft p =>
    refine ⟨h.nodup, h.rnk, h.vnpos, h.pos, h.pes, h.pesOut, h.roomIn, h.roomOut, ?_, h.roomSix, ?_, h.apart⟩
    · exact fun a => h.roomMid fun b => leq_and_zero hl (a b)
    · exact fun a b => h.clear a (leq_and_zero hl b)
  | rdft p => exact ⟨h.nodup, h.rnk, h.kinds, h.vnpos, h.pos, h.pes, h.pesOut, h.roomIn, h.roomOut, fun a => h.roomMid fun b => leq_and_zero hl (a b), h.apart⟩

/-- with sound solvers, every plan the planner can return is sound -/
theorem mplans_sound {S : MSolver → Prop} {A : Flags → Problem → Plan → Prop} (hS : ∀ s, S s → s.Sound)
    (hA : ∀ fl x c, Kosher x → A fl x c → FFTW.Sound fl.nd x c) : ∀ d fl p f, MKosher fl p → MPlans S A d fl p f → MSound fl.nd p f := by
  intro d
  induction d with
  | zero => intro fl p f _ h; exact h.elim
  | succ d ih =>
    rintro fl p f hp ⟨fl', hl, s, hs, hr⟩
    exact ((hS s hs p fl' (hp.mono hl)).runs hA (fun fl x c hx hc => ih fl x c hx hc) hr f rfl).mono (leq_nd hl)

theorem good_needLoc {α : Type} {fl : Flags} {Q : Option α → Prop} {n : ℕ} {p : ℕ → Option Problem} {m : FMod} {k : (ℕ → Plan) → MMk (Option α)}
    (h0 : Q none) (h1 : ∀ me < n, ∀ x, p me = some x → Kosher x)
    (h2 : ∀ c, (∀ me < n, ∀ x, p me = some x → FFTW.Sound (fl.modify m).nd x (c me)) → (k c).Good fl Q) : (MMk.needLoc n p m k).Good fl Q := by
  refine ⟨h1, fun r hr => ?_⟩
  cases r with
  | none => exact h0
  | some c => exact h2 c (hr c rfl)

theorem good_needGrp {α : Type} {fl : Flags} {Q : Option α → Prop} {n : ℕ} {p : ℕ → Option MProblem} {m : FMod} {k : (ℕ → MPlan) → MMk (Option α)}
    (h0 : Q none) (h1 : ∀ me < n, ∀ x, p me = some x → MKosher (fl.modify m) x)
    (h2 : ∀ c, (∀ me < n, ∀ x, p me = some x → MSound (fl.modify m).nd x (c me)) → (k c).Good fl Q) : (MMk.needGrp n p m k).Good fl Q := by
  refine ⟨h1, fun r hr => ?_⟩
  cases r with
  | none => exact h0
  | some c => exact h2 c (hr c rfl)

theorem good_needM {α : Type} {fl : Flags} {Q : Option α → Prop} {p : MProblem} {m : FMod} {k : MPlan → MMk (Option α)}
    (h0 : Q none) (h1 : MKosher (fl.modify m) p) (h2 : ∀ c, MSound (fl.modify m).nd p c → (k c).Good fl Q) : (MMk.need p m k).Good fl Q := by
  refine good_needGrp h0 (fun me _ x hx => by obtain rfl := Option.some.inj hx; exact h1) (fun c hc => h2 (c 0) (hc 0 (by omega) _ rfl))

theorem nd_noSlow (fl : Flags) : (fl.modify noSlow).nd = fl.nd := by
  have h : (fl.l &&& 1048567#20) &&& 4096#20 = fl.l &&& 4096#20 := by rw [BitVec.and_assoc]; rfl
  unfold Flags.modify noSlow Flags.nd
  simp [NO_SLOW, NO_DESTROY_INPUT, h]
  by_cases hh : fl.l &&& 4096#20 = 0#20 <;> simp [hh]

variable [CLib]

theorem mkplansPost_good {α : Type} {fl : Flags} {Q : Option α → Prop} {p : TransP} (hb : 0 < p.block) (hv : 0 < p.vn) {I0 O0 : ℕ → Ptr} {k : Post → MMk (Option α)} (h0 : Q none)
    (hf : ∀ me < p.comm.length, I0 (p.comm.at me) ≠ O0 (p.comm.at me) → Far (I0 (p.comm.at me)) (O0 (p.comm.at me)) (p.nout me))
    (hk : ∀ post, (∀ me < p.comm.length, PostOk p fl.nd (I0 (p.comm.at me)) (O0 (p.comm.at me)) me post) → (k post).Good fl Q) :
    (mkplansPost p I0 O0 k).Good fl Q := by
  unfold mkplansPost
  simp only
  refine good_needLoc h0 (fun me hme x hx => ?_) (fun c2 h2 => good_needLoc h0 (fun me hme x hx => ?_) (fun c3 h3 => good_needLoc h0 (fun me hme x hx => ?_) (fun c4 h4 => ?_)))
  · obtain rfl := Option.some.inj hx
    exact (post_kosher hb hv (hf me hme)).1
  · split at hx
    · obtain rfl := Option.some.inj hx
      exact (post_kosher hb hv (hf me hme)).2.1
    · simp at hx
  · split at hx
    · obtain rfl := Option.some.inj hx
      exact (post_kosher hb hv (hf me hme)).2.2
    · simp at hx
  · rw [nd_noSlow] at h2 h3 h4
    refine hk _ fun me hme => ⟨h2 me hme _ rfl, fun hr => h3 me hme _ (by rw [if_pos hr]), fun hr => h4 me hme _ (by rw [if_pos hr])⟩

variable {p : TransP}

theorem xok_val (h : p.Ok) {S R : ℕ → Ptr} {st st' : Dist} (hx : XOK p S R st st') {i j v : ℕ} (hi : i < p.nx) (hj : j < p.ny) (hv : v < p.vn) :
    (st' (p.comm.at (j / p.tblock))).mem (R (p.comm.at (j / p.tblock)) + (p.mid (j / p.tblock) i (j % p.tblock) v : ℤ)) =
      (st (p.comm.at (i / p.block))).mem (S (p.comm.at (i / p.block)) + (colOff p.nx p.vn p.block i j v : ℤ)) := by
  have hq := blockLt hi h.blk.1 h.pes
  have hme := blockLt hj h.tblk.1 h.tpes
  have hxl : i % p.block < p.b (i / p.block) := block_mod hi h.blk.1
  have hyl : j % p.tblock < p.bt (j / p.tblock) := block_mod hj h.tblk.1
  have ht : (j % p.tblock * p.b (i / p.block) + i % p.block) * p.vn + v < p.sbs (i / p.block) (j / p.tblock) := by
    have := lin_lt (lin_lt hyl hxl) hv
    unfold TransP.sbs
    rwa [Nat.mul_comm (p.b _)]
  have e := hx.val _ hme _ hq _ ht
  have e1 : p.rbo (j / p.tblock) (i / p.block) + ((j % p.tblock * p.b (i / p.block) + i % p.block) * p.vn + v) = p.mid (j / p.tblock) i (j % p.tblock) v := rfl
  have e2 : p.sbo (i / p.block) (j / p.tblock) + ((j % p.tblock * p.b (i / p.block) + i % p.block) * p.vn + v) = colOff p.nx p.vn p.block i j v := by
    unfold TransP.sbo colOff
    show _ = (j * p.b (i / p.block) + i % p.block) * p.vn + v
    have h3 : j = j / p.tblock * p.tblock + j % p.tblock := by
      have := Nat.div_add_mod j p.tblock
      rw [Nat.mul_comm] at this; omega
    conv_rhs => rw [h3]
    ring
  rw [e1, e2] at e
  exact e

theorem outL_eq (i j v : ℕ) : p.outL (j / p.tblock) i (j % p.tblock) v = p.outOff i j v := rfl

/-- before the exchange, exchange, after the exchange -/
theorem assemble (h : p.Ok) {I O S R : ℕ → Ptr} {st st1 st2 st3 : Dist}
    (pre : ∀ i < p.nx, ∀ j < p.ny, ∀ v < p.vn, (st1 (p.comm.at (i / p.block))).mem (S (p.comm.at (i / p.block)) + (colOff p.nx p.vn p.block i j v : ℤ)) =
      (st (p.comm.at (i / p.block))).mem (I (p.comm.at (i / p.block)) + (p.inOff i j v : ℤ)))
    (hx : XOK p S R st1 st2)
    (post : ∀ me < p.comm.length, ∀ i < p.nx, ∀ yl < p.bt me, ∀ v < p.vn,
      (st3 (p.comm.at me)).mem (O (p.comm.at me) + (p.outL me i yl v : ℤ)) = (st2 (p.comm.at me)).mem (R (p.comm.at me) + (p.mid me i yl v : ℤ)))
    {i j v : ℕ} (hi : i < p.nx) (hj : j < p.ny) (hv : v < p.vn) :
    (st3 (p.comm.at (j / p.tblock))).mem (O (p.comm.at (j / p.tblock)) + (p.outOff i j v : ℤ)) =
      (st (p.comm.at (i / p.block))).mem (I (p.comm.at (i / p.block)) + (p.inOff i j v : ℤ)) := by
  rw [← outL_eq, post _ (blockLt hj h.tblk.1 h.tpes) i hi _ (block_mod hj h.tblk.1) v hv, xok_val h hx hi hj hv, pre i hi j hj v hv]

/-- frames of the processes make a frame of all -/
theorem mframe {comm : Comm} {space : ℕ → ℕ} {nd : Bool} {I O : ℕ → Ptr} {st st' : Dist} (h1 : ∀ w, w ∉ comm → st' w = st w)
    (h2 : ∀ me < comm.length, Frame (st (comm.at me)) (st' (comm.at me)) (PW nd (I (comm.at me)) (O (comm.at me)) (space (comm.at me)))) :
    MFrame comm space nd I O st st' := by
  refine ⟨h1, fun w hw => ?_⟩
  obtain ⟨a1, a2⟩ := at_idx hw
  have := h2 _ a1
  rw [a2] at this
  exact this

theorem In.mono {P : Ptr} {n m : ℕ} {q : Ptr} (hq : In P n q) (h : n ≤ m) : In P m q := by
  obtain ⟨x, hx, e⟩ := hq
  exact ⟨x, by omega, e⟩

theorem PW.mono {nd : Bool} {P Q : Ptr} {n m : ℕ} {q : Ptr} (hq : PW nd P Q n q) (h : n ≤ m) : PW nd P Q m q := by
  rcases hq with hq | ⟨h1, hq⟩
  · exact Or.inl (hq.mono h)
  · exact Or.inr ⟨h1, hq.mono h⟩

/-- the local transposition before the exchange -/
theorem pre_ok (h : p.Ok) {nd : Bool} (hti : p.flags.transposedIn = false) {P0 Q0 P Q : Ptr} {me : ℕ} {c : Plan} (hc : FFTW.Sound nd (rdft0 (preDims p me) P0 Q0) c)
    (hs : P0 = Q0 → P = Q) (hf : P0 ≠ Q0 → Far P Q (p.b me * p.ny * p.vn)) {st : State} (bP : P.blk < st.next) (bQ : Q.blk < st.next) :
    Frame st (c.rdftApply P Q st) (PW nd P Q (p.b me * p.ny * p.vn)) ∧
      ∀ i < p.nx, i / p.block = me → ∀ j < p.ny, ∀ v < p.vn,
        (c.rdftApply P Q st).mem (Q + (colOff p.nx p.vn p.block i j v : ℤ)) = st.mem (P + (p.inOff i j v : ℤ)) := by
  obtain ⟨f, g⟩ := copy_ok' (pre_copy me h.vn) hc bP bQ hs hf
  refine ⟨f, ?_⟩
  rintro i hi rfl j hj v hv
  have hxl : i % p.block < p.b (i / p.block) := block_mod hi h.blk.1
  have := g _ (pre_pair (p := p) hxl hj hv)
  unfold TransP.inOff
  rw [hti]
  exact this

theorem pre_kosher (h : p.Ok) {P0 Q0 : Ptr} {me : ℕ} (hf : P0 ≠ Q0 → Far P0 Q0 (p.b me * p.ny * p.vn)) : Kosher (rdft0 (preDims p me) P0 Q0) :=
  kosher_rdft0 (pre_copy me h.vn) hf

end FFTW.Mpi
