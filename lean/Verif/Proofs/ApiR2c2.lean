import Verif.Proofs.ApiR2c

namespace FFTW.Api
open Tensor Spec DftS Planner RowMajor
open MapFlags (U32)

section
variable {B : RBatch} {c δ : ℤ} {sz loops : List Dim} {inpl nd : Bool} {F : Ptr → Ptr → State → State}

theorem r2c_vals (g : Geo B .R2HC c sz loops) (hG : HOK (apiHalf .R2HC sz δ) (tag sz.dropLast) (some loops) inpl nd F)
    (wf : HWF (apiHalf .R2HC sz δ) sz.dropLast (some loops) inpl nd) {I O : Ptr} {st : State}
    (hc : HCompat (apiHalf .R2HC sz δ) (append (some sz.dropLast) (some loops)) inpl I O st) :
    R2cs B (fun x => st.mem (I + x)) ((carr O c δ).elt (F I O st).mem) ∧
      OnlyChanges st (F I O st) fun q => (carr O c δ).Mem B.Cplx q ∨ ((nd = false ∨ inpl = true) ∧ RMem I B.Real q) := by
  have hfst : (tag sz.dropLast).map Prod.fst = sz.dropLast := map_fst_tag _
  obtain ⟨hf, hv⟩ := hG (by rw [hfst]; exact wf) I O st (by rw [hfst]; exact hc)
  rw [hfst] at hf
  refine ⟨fun b k q hb hk hq => ?_, hf.next, fun x hx hw => hf.mem x hx fun h => hw ?_⟩
  · have hb' : Box (loops.map (·.n)) b := by rw [← g.v]; exact hb
    have hkn : Box ((tag sz.dropLast).map (·.1.n)) k := by
      rw [show (fun e : Dim × Unit => e.1.n) = (fun d : Dim => d.n) ∘ Prod.fst from rfl, ← List.map_map, hfst, ← g.n]; exact hk
    have hkl : k.length = (tag sz.dropLast).length := by rw [box_length hkn]; simp
    have hkl' : k.length = sz.dropLast.length := by rw [hkl]; simp [tag]
    have key : ∀ t, t < 2 * (B.m / 2 + 1) → (F I O st).mem (O + (c * B.cplx b k (t / 2) + ((t % 2 : ℕ) : ℤ) * δ)) =
        (if t % 2 = 0 then Complex.re else Complex.im) (sumBox B.n fun j => ∑ i ∈ Finset.range B.m, twist (-1) (B.n ++ [B.m]) (j ++ [i]) (k ++ [t / 2]) *
          (st.mem (I + B.real b j i) : ℂ)) := by
      intro t ht
      have h1 := hv _ (gidx_zip hkn) _ (mem_pairs_box.2 ⟨b, hb', rfl⟩) t (by show t < 2 * ((lastDim sz).n / 2 + 1); rw [← g.m]; exact ht)
      have ez := g.zig (δ := δ) hb hk ht
      rw [← ez]
      rw [gOut_zip hkl] at h1
      have e1 : (tag sz.dropLast).map (fun e => e.1.os) = sz.dropLast.map (cst .R2HC) := by
        rw [show (fun e : Dim × Unit => e.1.os) = (fun d : Dim => d.os) ∘ Prod.fst from rfl, ← List.map_map, hfst]; rfl
      rw [e1] at h1
      have h2 : (F I O st).mem (O + (dot (loops.map (cst .R2HC)) b + dot (sz.dropLast.map (cst .R2HC)) k + Spec.zig δ (cst .R2HC (lastDim sz)) t)) =
          (if t % 2 = 0 then Complex.re else Complex.im) (gSum dftK ((tag sz.dropLast).zip k) fun o => ∑ i ∈ Finset.range (lastDim sz).n,
            ω (lastDim sz).n ^ (i * (t / 2)) * ((st.mem (I + (o + dot (loops.map (·.is)) b + Spec.zig (rst .R2HC (lastDim sz)) (rst .R2HC (lastDim sz) * 2) i)) : ℝ) : ℂ)) := by
        rw [add_comm (dot (loops.map (cst .R2HC)) b)]; exact h1
      rw [h2, gSum_zip hkl', ← g.m, ← g.n]
      refine congrArg _ ?_
      refine sumBox_congr fun j hj => ?_
      rw [Finset.mul_sum]
      refine Finset.sum_congr rfl fun i hi => ?_
      rw [twist_append (-1) _ _ _ (box_length hj) (box_length hk), ← g.zigR hb hj (Finset.mem_range.1 hi)]
      rw [show dot (loops.map (rst .R2HC)) b + dot (sz.dropLast.map (rst .R2HC)) j = dot (sz.dropLast.map (·.is)) j + dot (loops.map (·.is)) b from add_comm _ _]
      rw [ω_pow_exp]
      simp only [twist, mul_one]
      push_cast
      ring
    have k0 := key (2 * q) (by omega)
    have k1 := key (2 * q + 1) (by omega)
    rw [show 2 * q / 2 = q by omega, show 2 * q % 2 = 0 by omega, if_pos rfl] at k0
    rw [show (2 * q + 1) / 2 = q by omega, show (2 * q + 1) % 2 = 1 by omega, if_neg (by omega)] at k1
    apply Complex.ext
    · refine Eq.trans ?_ k0
      simp [CArr.elt, carr]
    · refine Eq.trans ?_ k1
      simp [CArr.elt, carr]
  · rcases h with ⟨b, hb, rfl⟩ | ⟨h0, a, ha, rfl⟩
    · exact Or.inl (g.mem_cplx.1 ⟨b, hb, rfl⟩)
    · exact Or.inr ⟨h0, (g.mem_real (δ := δ)).1 ⟨a, ha, rfl⟩⟩

theorem c2r_vals (g : Geo B .HC2R c sz loops) (hG : HOK (apiHalf .HC2R sz δ) (tag sz.dropLast) (some loops) inpl nd F)
    (wf : HWF (apiHalf .HC2R sz δ) sz.dropLast (some loops) inpl nd) {I O : Ptr} {st : State}
    (hc : HCompat (apiHalf .HC2R sz δ) (append (some sz.dropLast) (some loops)) inpl I O st) :
    C2rs B ((carr I c δ).elt st.mem) (fun x => (F I O st).mem (O + x)) ∧
      OnlyChanges st (F I O st) fun q => RMem O B.Real q ∨ ((nd = false ∨ inpl = true) ∧ (carr I c δ).Mem B.Cplx q) := by
  have hfst : (tag sz.dropLast).map Prod.fst = sz.dropLast := map_fst_tag _
  obtain ⟨hf, hv⟩ := hG (by rw [hfst]; exact wf) I O st (by rw [hfst]; exact hc)
  rw [hfst] at hf
  refine ⟨fun b j i hb hj hi => ?_, hf.next, fun x hx hw => hf.mem x hx fun h => hw ?_⟩
  · have hb' : Box (loops.map (·.n)) b := by rw [← g.v]; exact hb
    have hjn : Box ((tag sz.dropLast).map (·.1.n)) j := by
      rw [show (fun e : Dim × Unit => e.1.n) = (fun d : Dim => d.n) ∘ Prod.fst from rfl, ← List.map_map, hfst, ← g.n]; exact hj
    have hjl : j.length = (tag sz.dropLast).length := by rw [box_length hjn]; simp
    have hjl' : j.length = sz.dropLast.length := by rw [hjl]; simp [tag]
    have h1 := hv _ (gidx_zip hjn) _ (mem_pairs_box.2 ⟨b, hb', rfl⟩) i (by show i < (lastDim sz).n; rw [← g.m]; exact hi)
    rw [gOut_zip hjl] at h1
    have e1 : (tag sz.dropLast).map (fun e => e.1.os) = sz.dropLast.map (rst .HC2R) := by
      rw [show (fun e : Dim × Unit => e.1.os) = (fun d : Dim => d.os) ∘ Prod.fst from rfl, ← List.map_map, hfst]; rfl
    rw [e1] at h1
    have h2 : (F I O st).mem (O + (dot (loops.map (rst .HC2R)) b + dot (sz.dropLast.map (rst .HC2R)) j + Spec.zig (rst .HC2R (lastDim sz)) (rst .HC2R (lastDim sz) * 2) i)) =
        (gSum idftK ((tag sz.dropLast).zip j) fun o => ∑ t ∈ Finset.range (2 * ((lastDim sz).n / 2 + 1)),
          (mult (lastDim sz).n (t / 2) : ℂ) * star (ω (lastDim sz).n ^ (i * (t / 2))) * (if t % 2 = 0 then 1 else Complex.I) *
          ((st.mem (I + (o + dot (loops.map (·.is)) b + Spec.zig δ (cst .HC2R (lastDim sz)) t)) : ℝ) : ℂ)).re := by
      rw [add_comm (dot (loops.map (rst .HC2R)) b)]; exact h1
    dsimp only
    rw [← g.zigR hb hj hi, h2, gSum_zip_idft hjl', ← g.m, ← g.n, ← c2r_math g.mpos _ hj i]
    congr 1
    refine sumBox_congr fun k hk => ?_
    congr 1
    rw [sum_two]
    refine Finset.sum_congr rfl fun p hp => ?_
    have hp' : p ≤ B.m / 2 := by have := Finset.mem_range.1 hp; omega
    have z0 := g.zig (δ := δ) hb hk (show 2 * p < 2 * (B.m / 2 + 1) by omega)
    have z1 := g.zig (δ := δ) hb hk (show 2 * p + 1 < 2 * (B.m / 2 + 1) by omega)
    rw [show 2 * p / 2 = p by omega, show 2 * p % 2 = 0 by omega] at z0 ⊢
    rw [show (2 * p + 1) / 2 = p by omega, show (2 * p + 1) % 2 = 1 by omega] at z1 ⊢
    rw [if_pos rfl, if_neg (by omega)]
    have s0 : dot (sz.dropLast.map (·.is)) k + dot (loops.map (·.is)) b = dot (loops.map (cst .HC2R)) b + dot (sz.dropLast.map (cst .HC2R)) k := add_comm _ _
    rw [s0, z0, z1]
    have hX : (carr I c δ).elt st.mem (B.cplx b k p) = (st.mem (I + (c * B.cplx b k p + ((0 : ℕ) : ℤ) * δ)) : ℂ) + Complex.I * (st.mem (I + (c * B.cplx b k p + ((1 : ℕ) : ℤ) * δ)) : ℂ) := by
      apply Complex.ext <;> simp [CArr.elt, carr]
    rw [hX]; ring
  · rcases h with ⟨b, hb, rfl⟩ | ⟨h0, a, ha, rfl⟩
    · exact Or.inl ((g.mem_real (δ := δ)).1 ⟨b, hb, rfl⟩)
    · exact Or.inr ⟨h0, g.mem_cplx.1 ⟨a, ha, rfl⟩⟩

end

/-- arrays a plan can be executed on: of the plan's kind (in place or not), existing, not overlapping -/
structure Fits2 (B : RBatch) (r : Ptr) (A : CArr) (r' : Ptr) (A' : CArr) (st : State) : Prop where
  kind : r' = A'.re 0 ↔ r = A.re 0
  sep : r' ≠ A'.re 0 → B.Apart r' A'
  realOk : r'.blk < st.next
  cplxOk : (A'.re 0).blk < st.next

variable [CLib]

open Classical in
/-- everything about these transforms, at the API -/
theorem rdft2_api (env : Env) (hs : ∀ d ∈ env.slvdescs, d.slv.Sound) {n : ℕ} {tl : ℝ} {flags : U32} {k : R2Kind} {B : RBatch} {c δ : ℤ} {sz loops : List Dim}
    {r C : Ptr} {st0 st0' : PSt} {ap : ApiPlan} {prb : Option (Option Problem)} (h : planWith env n tl flags 0 prb st0 = .ok (some ap, st0'))
    (hp : ∀ p, prb = some (some p) → p = mkproblemRdft2_3pointers sz (some loops) r C (C + δ) k ∧ Geo B k c sz loops)
    (ok : R2Ok k B (¬ Preserves flags) r (carr C c δ)) {r' C' : Ptr} {st : State} (hf : Fits2 B r (carr C c δ) r' (carr C' c δ) st) :
    (match k with
      | .R2HC => R2cs B (fun x => st.mem (r' + x)) ((carr C' c δ).elt (ap.pln.rdft2Apply r' (r' + realStep ap.prb) C' (C' + δ) st).mem) ∧
          OnlyChanges st (ap.pln.rdft2Apply r' (r' + realStep ap.prb) C' (C' + δ) st) fun q =>
            (carr C' c δ).Mem B.Cplx q ∨ ((¬ Preserves flags ∨ r = (carr C c δ).re 0) ∧ RMem r' B.Real q)
      | .HC2R => C2rs B ((carr C' c δ).elt st.mem) (fun x => (ap.pln.rdft2Apply r' (r' + realStep ap.prb) C' (C' + δ) st).mem (r' + x)) ∧
          OnlyChanges st (ap.pln.rdft2Apply r' (r' + realStep ap.prb) C' (C' + δ) st) fun q =>
            RMem r' B.Real q ∨ ((¬ Preserves flags ∨ r = (carr C c δ).re 0) ∧ (carr C' c δ).Mem B.Cplx q)) ∧
    execute ap = ap.pln.rdft2Apply r (r + realStep ap.prb) C (C + δ) := by
  obtain ⟨p, pl, hprb, hmk, rfl⟩ := planWith_some h
  obtain ⟨rfl, g⟩ := hp p hprb
  have hC := carr_zero C c δ
  have hC' := carr_zero C' c δ
  obtain ⟨sz', r1, e0, e1, e2, e3, e4, e5⟩ := three_pointers sz (some loops) r C (C + δ) k g.nonneg g.pos
  rw [e0] at hmk ⊢
  have hδ : (C + δ - C : ℤ) = δ := by show C.off + δ - C.off = δ; ring
  have hρ : (r1 - r : ℤ) = rst k (lastDim sz) := by rw [e2]; show r.off + _ - r.off = _; ring
  have hkosh : Kosher (mkproblemRdft2 sz' (some loops) r r1 C (C + δ) k) := by
    refine kosher_rdft2_api ⟨by rw [e2]; rfl, rfl⟩ e4 (nonNegV_some.2 g.nonnegV) e5 (fun he => ?_) (fun hne => ?_)
    · rcases ok.arr with ⟨_, h2⟩ | ⟨h2, _⟩
      · rw [← he] at h2
        obtain ⟨s1, s2, _⟩ := g.strides h2
        rw [e1]
        refine ⟨s1, fun l hl => ?_⟩
        obtain rfl := Option.some.inj hl
        exact s2
      · exact absurd (by rw [hC]; exact he) h2
    · rcases ok.arr with ⟨h2, _⟩ | ⟨_, h2⟩
      · rw [hC] at h2; exact absurd h2 hne
      · rw [e1, e3, hρ, hδ]; exact g.apart h2
  have hS := C04_api_returns_only_correct_plans env hs n tl flags _ hkosh st0 st0' pl hmk
  have hG := sound_mkproblemRdft2 hS
  rw [e1, e3, hρ, hδ] at hG
  obtain ⟨hr, hx⟩ := realStep_mk hS
  rw [hρ] at hr
  dsimp only
  rw [hr]
  have wf := g.wf ok (nd := decide (Preserves flags)) (fun h => of_decide_eq_false h)
  have hcp : HCompat (apiHalf k sz δ) (append (some sz.dropLast) (some loops)) (decide (r = C)) (in2 k r' C') (out2 k r' C') st := by
    have hb : C'.blk < st.next := by have := hf.cplxOk; rwa [hC'] at this
    have hkk := hf.kind
    rw [hC, hC'] at hkk
    refine ⟨?_, ?_, fun h => ?_, fun h => ?_⟩
    · cases k; exacts [hf.realOk, hb]
    · cases k; exacts [hb, hf.realOk]
    · have := hkk.2 (of_decide_eq_true h)
      cases k; exacts [this, this.symm]
    · refine g.apart (hf.sep ?_)
      rw [hC']
      exact fun h' => of_decide_eq_false h (hkk.1 h')
  have hset : ∀ P : Prop, ((decide (Preserves flags) = false ∨ decide (r = C) = true) ∧ P) → ((¬ Preserves flags ∨ r = (carr C c δ).re 0) ∧ P) := by
    rintro P ⟨h | h, hP⟩
    · exact ⟨Or.inl (of_decide_eq_false h), hP⟩
    · exact ⟨Or.inr (by rw [hC]; exact of_decide_eq_true h), hP⟩
  refine ⟨?_, ?_⟩
  · cases k with
    | R2HC =>
      obtain ⟨v1, v2⟩ := r2c_vals g hG wf hcp
      exact ⟨v1, v2.next, fun q hq hw => v2.mem q hq fun h => hw (h.imp id (hset _))⟩
    | HC2R =>
      obtain ⟨v1, v2⟩ := c2r_vals g hG wf hcp
      exact ⟨v1, v2.next, fun q hq hw => v2.mem q hq fun h => hw (h.imp id (hset _))⟩
  · rw [hx, e2]

end FFTW.Api
