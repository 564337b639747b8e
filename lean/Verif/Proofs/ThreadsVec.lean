import Verif.Proofs.Threads
import Verif.Proofs.Rdft2Chunks

/-! # threads/dft-vrank-geq1.c, threads/rdft-vrank-geq1.c and threads/vrank-geq1-rdft2.c are sound -/

namespace FFTW.Thr
open Tensor Spec DftS

theorem zero_mem_pairs {l : List Dim} (h : Pos l) : (0 : ℤ × ℤ) ∈ pairs (some l) := by
  induction l with
  | nil => simp [pairs, offs]
  | cons d l ih =>
    rw [pairs_cons]
    exact Multiset.mem_bind.2 ⟨0, Multiset.mem_range.2 (h d (by simp)), Multiset.mem_map.2 ⟨0, ih (h.sub fun e he => by simp [he]), by simp⟩⟩

theorem apart_piece {V τ : Type} [CommRing V] [Elt V] {δi δo : ℤ} {sz : List (Dim × τ)} {m : ℕ} {voff : ℕ → ℤ × ℤ} {vecs : ℕ → Tensor} {vec : Tensor} {I O : Ptr}
    (hp : pairs vec = (Multiset.range m).bind fun i => (pairs (vecs i)).map fun v => voff i + v) (h : Apart (locT V δi δo sz vec) I O) {i : ℕ} (hi : i < m) :
    Apart (locT V δi δo sz (vecs i)) (I + (voff i).1) (O + (voff i).2) := by
  have hpp := pairs_locT_pieces (V := V) (δi := δi) (δo := δo) (sz := sz) hp
  have key : ∀ x ∈ pairs (locT V δi δo sz (vecs i)), voff i + x ∈ pairs (locT V δi δo sz vec) := by
    intro x hx
    rw [hpp]
    exact Multiset.mem_bind.2 ⟨i, Multiset.mem_range.2 hi, Multiset.mem_map_of_mem _ hx⟩
  intro a ha b hb
  rw [Ptr.add_add, Ptr.add_add]
  rw [ins_eq] at ha
  rw [outs_eq] at hb
  obtain ⟨x, hx, rfl⟩ := Multiset.mem_map.1 ha
  obtain ⟨y, hy, rfl⟩ := Multiset.mem_map.1 hb
  exact h _ (by rw [ins_eq]; exact Multiset.mem_map_of_mem Prod.fst (key x hx)) _ (by rw [outs_eq]; exact Multiset.mem_map_of_mem Prod.snd (key y hy))

theorem apart_ne {V τ : Type} [CommRing V] [Elt V] {δi δo : ℤ} {sz : List (Dim × τ)} {vec : Tensor} {I O : Ptr}
    (h : Apart (locT V δi δo sz vec) I O) (h0 : (0 : ℤ × ℤ) ∈ pairs (locT V δi δo sz vec)) : I ≠ O := by
  intro e
  refine h 0 ?_ 0 ?_ (by rw [Ptr.add_zero, Ptr.add_zero]; exact e)
  · rw [ins_eq]; exact Multiset.mem_map_of_mem Prod.fst h0
  · rw [outs_eq]; exact Multiset.mem_map_of_mem Prod.snd h0

theorem set_mem {v : List Dim} {vdim : ℕ} {x e : Dim} (h : e ∈ v.set vdim x) : e ∈ v ∨ e = x := by
  exact List.mem_or_eq_of_mem_set h

end FFTW.Thr

namespace FFTW.DftS
open Tensor Spec Thr
variable [CLib]

theorem thrVrankGeq1_sound (S : Sched) (vecloopDim : Int) (buddies : List Int) (taste : Taste) : (thrVrankGeq1 S vecloopDim buddies taste).Sound := by
  apply dftSolver_sound
  intro p fl hk
  obtain ⟨⟨hn1, hn0, hap⟩, hn2, hip⟩ := kosher_dft hk
  split
  · exact good_nada
  rename_i v hv
  rw [hv] at hn2
  split
  rotate_left
  · exact good_nada
  rename_i happ
  split
  · exact good_nada
  rename_i vdim hpick
  split
  rotate_left
  · exact good_nada
  split
  · exact good_nada
  rename_i d hd
  obtain ⟨d', hd', hs⟩ := pickdim_spec hpick
  rw [hd] at hd'
  obtain rfl := Option.some.inj hd'
  have hT : 0 < fl.nthr := by omega
  have hvp := kosher_vpos hk hv
  have hdm := List.mem_of_getElem? hd
  have hdn : 0 < d.n := hvp d hdm
  have hpb := pairs_blocks_at (T := fl.nthr) hd hdn hT
  dsimp only
  have hstr : p.ri = p.ro → d.is = d.os := by
    intro h
    rcases hs with hs | hs
    · simp at hs; exact absurd h hs
    · exact hs
  -- blocks of a problem that is not in place are apart, so they are not in place either
  have hapi : ∀ i < count d.n fl.nthr, p.ri ≠ p.ro →
      Apart (locT ℂ (p.ii - p.ri) (p.io - p.ro) (tag p.sz) (some (v.set vdim ⟨blockLen d.n fl.nthr i, d.is, d.os⟩)))
        (p.ri + (i : ℤ) * (d.is * (blockSize d.n fl.nthr : ℤ))) (p.ro + (i : ℤ) * (d.os * (blockSize d.n fl.nthr : ℤ))) := by
    intro i hi hne
    have := hap hne
    rw [hv] at this
    exact apart_piece hpb this hi
  have hsame : ∀ i < count d.n fl.nthr, (p.ri + (i : ℤ) * (d.is * (blockSize d.n fl.nthr : ℤ)) = p.ro + (i : ℤ) * (d.os * (blockSize d.n fl.nthr : ℤ))) ↔ p.ri = p.ro := by
    intro i hi
    constructor
    · intro h
      by_contra hne
      refine apart_ne (hapi i hi hne) ?_ h
      refine zero_mem_pairs ?_
      intro e he
      rcases List.mem_append.1 he with he | he
      · rcases List.mem_cons.1 he with rfl | he
        · simp [Elt.nc]
        · rw [map_fst_tag] at he; exact hn0 e he
      · rcases set_mem he with he | rfl
        · exact hvp e he
        · exact (block_end hdn hT hi).2
    · intro h; rw [h, hstr h]
  refine (good_collect (Q := fun i c => GOK dftK (tag p.sz) (some (v.set vdim ⟨blockLen d.n fl.nthr i, d.is, d.os⟩)) (p.ii - p.ri) (p.io - p.ro)
      (decide (p.ri = p.ro)) fl.nd (fun I O => c.dftApply I (I + (p.ii - p.ri)) O (O + (p.io - p.ro))) ∧
      (p.ri = p.ro → ins (locT ℂ (p.ii - p.ri) (p.io - p.ro) (tag p.sz) (some (v.set vdim ⟨blockLen d.n fl.nthr i, d.is, d.os⟩))) =
        outs (locT ℂ (p.ii - p.ri) (p.io - p.ro) (tag p.sz) (some (v.set vdim ⟨blockLen d.n fl.nthr i, d.is, d.os⟩))))) _ ?_).bind ?_
  · intro i hi
    refine ⟨?_, ?_⟩
    · refine kosher_mkproblemDft hn1 ?_ hn0 ?_
      · rw [nonNegV_some] at *
        intro e he
        rcases set_mem he with he | rfl
        · exact hn2 e he
        · exact hn2 d hdm
      · intro hne
        rw [ptr_shift_sub, ptr_shift_sub]
        exact hapi i hi fun h => hne ((hsame i hi).2 h)
    · rintro r hr c rfl
      have hc := hr c rfl
      rw [nd_nthr] at hc
      obtain ⟨hG, hI⟩ := sound_mkproblemDft hc
      simp only [ptr_shift_sub] at hG hI
      refine ⟨?_, fun h => (hI ((hsame i hi).2 h)).2⟩
      rw [decide_eq_decide.2 (hsame i hi)] at hG
      exact hG
  · intro r hr
    cases r with
    | none => exact good_nada
    | some cldrn =>
      obtain ⟨hlen, hq⟩ := hr cldrn rfl
      apply good_ret
      refine soundDft (by simp [hv]) ?_
      rw [hv]
      refine (GOK_spawn S (m := count d.n fl.nthr) (vecs := fun i => some (v.set vdim ⟨blockLen d.n fl.nthr i, d.is, d.os⟩))
        (voff := fun i => ((i : ℤ) * (d.is * (blockSize d.n fl.nthr : ℤ)), (i : ℤ) * (d.os * (blockSize d.n fl.nthr : ℤ))))
        (ip := fun _ => decide (p.ri = p.ro)) (f := fun i I O => nth cldrn i fun cld => cld.dftApply I (I + (p.ii - p.ri)) O (O + (p.io - p.ro)))
        hpb ?_ ?_ (fun i hi h => Or.inl h) ?_).congr ?_
      · intro i hi
        obtain ⟨c, hc, hrun⟩ := nth_eq (l := cldrn) (i := i) (by omega)
        refine (hq i c hc).1.congr fun I O st => ?_
        rw [hrun]
      · intro i hi h
        exact ⟨h, by simp only; rw [hstr (of_decide_eq_true h)]⟩
      · intro h i hi
        obtain ⟨c, hc, -⟩ := nth_eq (l := cldrn) (i := i) (by omega)
        exact (hq i c hc).2 (of_decide_eq_true h)
      · intro I O st
        congr 1
        funext i st
        congr 1
        funext c
        simp only [Ptr.add_add]
        rw [add_comm ((i : ℤ) * (d.is * _)), add_comm ((i : ℤ) * (d.os * _))]

end FFTW.DftS

namespace FFTW.RdftS
open Tensor Spec Thr DftS
variable [CLib]

theorem thrVrankGeq1_sound (S : Sched) (vecloopDim : Int) (buddies : List Int) (taste : Taste) : (thrVrankGeq1 S vecloopDim buddies taste).Sound := by
  apply rdftSolver_sound
  intro p fl hk
  obtain ⟨hn0, hap, hvp', hip⟩ := kosher_rdft hk
  split
  · exact good_nada
  rename_i v hv
  split
  rotate_left
  · exact good_nada
  rename_i happ
  split
  · exact good_nada
  rename_i vdim hpick
  split
  rotate_left
  · exact good_nada
  split
  · exact good_nada
  rename_i d hd
  obtain ⟨d', hd', hs⟩ := pickdim_spec hpick
  rw [hd] at hd'
  obtain rfl := Option.some.inj hd'
  have hT : 0 < fl.nthr := by omega
  have hvp := hvp' v hv
  have hdm := List.mem_of_getElem? hd
  have hdn : 0 < d.n := hvp d hdm
  have hpb := pairs_blocks_at (T := fl.nthr) hd hdn hT
  dsimp only
  have hstr : p.I = p.O → d.is = d.os := by
    intro h
    rcases hs with hs | hs
    · simp at hs; exact absurd h hs
    · exact hs
  have hapi : ∀ i < count d.n fl.nthr, p.I ≠ p.O →
      Apart (locT ℝ 0 0 p.sz (some (v.set vdim ⟨blockLen d.n fl.nthr i, d.is, d.os⟩)))
        (p.I + (i : ℤ) * (d.is * (blockSize d.n fl.nthr : ℤ))) (p.O + (i : ℤ) * (d.os * (blockSize d.n fl.nthr : ℤ))) := by
    intro i hi hne
    have := apart_real.2 (hap hne)
    rw [hv] at this
    exact apart_piece hpb this hi
  have hsame : ∀ i < count d.n fl.nthr, (p.I + (i : ℤ) * (d.is * (blockSize d.n fl.nthr : ℤ)) = p.O + (i : ℤ) * (d.os * (blockSize d.n fl.nthr : ℤ))) ↔ p.I = p.O := by
    intro i hi
    constructor
    · intro h
      by_contra hne
      refine apart_ne (hapi i hi hne) ?_ h
      refine zero_mem_pairs ?_
      intro e he
      rcases List.mem_append.1 he with he | he
      · rcases List.mem_cons.1 he with rfl | he
        · simp [Elt.nc]
        · obtain ⟨e', he', rfl⟩ := List.mem_map.1 he
          exact hn0 e' he'
      · rcases set_mem he with he | rfl
        · exact hvp e he
        · exact (block_end hdn hT hi).2
    · intro h; rw [h, hstr h]
  refine (good_collect (Q := fun i c => GOK rK p.sz (some (v.set vdim ⟨blockLen d.n fl.nthr i, d.is, d.os⟩)) 0 0
      (decide (p.I = p.O)) fl.nd c.rdftApply ∧
      (p.I = p.O → ins (locT ℝ 0 0 p.sz (some (v.set vdim ⟨blockLen d.n fl.nthr i, d.is, d.os⟩))) =
        outs (locT ℝ 0 0 p.sz (some (v.set vdim ⟨blockLen d.n fl.nthr i, d.is, d.os⟩))))) _ ?_).bind ?_
  · intro i hi
    refine ⟨?_, ?_⟩
    · refine kosher_mkproblemRdft hn0 ?_ ?_
      · intro hne
        rw [← apart_real]
        exact hapi i hi fun h => hne ((hsame i hi).2 h)
      · intro he _ ht _
        obtain ⟨h1, h2⟩ := hk.2 ((hsame i hi).1 he) ht v hv
        refine ⟨h1, ?_⟩
        rintro _ ⟨⟩ x hx _
        rcases set_mem hx with hx | rfl
        · exact h2 x hx
        · exact h2 d hdm
    · rintro r hr c rfl
      have hc := hr c rfl
      rw [nd_nthr] at hc
      obtain ⟨hG, hI⟩ := sound_mkproblemRdft hn0 hc
      refine ⟨?_, fun h => hI ((hsame i hi).2 h)⟩
      rw [decide_eq_decide.2 (hsame i hi)] at hG
      exact hG
  · intro r hr
    cases r with
    | none => exact good_nada
    | some cldrn =>
      obtain ⟨hlen, hq⟩ := hr cldrn rfl
      apply good_ret
      refine soundRdft (by simp [hv]) ?_
      rw [hv]
      refine GOK_spawn S (m := count d.n fl.nthr) (vecs := fun i => some (v.set vdim ⟨blockLen d.n fl.nthr i, d.is, d.os⟩))
        (voff := fun i => ((i : ℤ) * (d.is * (blockSize d.n fl.nthr : ℤ)), (i : ℤ) * (d.os * (blockSize d.n fl.nthr : ℤ))))
        (ip := fun _ => decide (p.I = p.O)) (f := fun i I O => nth cldrn i fun cld => cld.rdftApply I O)
        hpb ?_ ?_ (fun i hi h => Or.inl h) ?_
      · intro i hi
        obtain ⟨c, hc, hrun⟩ := nth_eq (l := cldrn) (i := i) (by omega)
        refine (hq i c hc).1.congr fun I O st => ?_
        rw [hrun]
      · intro i hi h
        exact ⟨h, by simp only; rw [hstr (of_decide_eq_true h)]⟩
      · intro h i hi
        obtain ⟨c, hc, -⟩ := nth_eq (l := cldrn) (i := i) (by omega)
        exact (hq i c hc).2 (of_decide_eq_true h)

end FFTW.RdftS

namespace FFTW
open Tensor Spec Thr DftS
variable [CLib]

theorem thrVrankGeq1_2_sound (S : Sched) (vecloopDim : Int) (buddies : List Int) (taste : Taste) : (Rdft2S.thrVrankGeq1 S vecloopDim buddies taste).Sound := by
  apply rdft2Solver_sound
  intro p fl hk
  obtain ⟨he, hap, hn, hp, hvv⟩ := kosher_rdft2 hk
  split
  · exact good_nada
  rename_i v hv
  obtain ⟨hvn, hvp⟩ := hvv v hv
  split
  rotate_left
  · exact good_nada
  rename_i happ
  split
  · exact good_nada
  rename_i vdim hpick
  split
  rotate_left
  · exact good_nada
  split
  · exact good_nada
  rename_i d hd
  have hT : 0 < fl.nthr := by omega
  have hdm := List.mem_of_getElem? hd
  have hdn : 0 < d.n := hvp d hdm
  have hpb := pairs_blocks_at (T := fl.nthr) hd hdn hT
  dsimp only
  set bs := blockSize d.n fl.nthr with hbs
  set its := Rdft2S.rstride p.kind d * (bs : ℤ) with hits
  set ots := Rdft2S.cstride p.kind d * (bs : ℤ) with hots
  have hstr : p.r0 = p.cr → d.is = d.os := fun h => (he h).2 v hv d hdm
  have hio : p.r0 = p.cr → its = ots := by
    intro h
    rw [hits, hots]
    unfold Rdft2S.rstride Rdft2S.cstride
    cases p.kind <;> simp only [hstr h]
  have hin : ∀ i : ℕ, in2 p.kind (p.r0 + (i : ℤ) * its) (p.cr + (i : ℤ) * ots) = in2 p.kind p.r0 p.cr + (i : ℤ) * (d.is * (bs : ℤ)) := by
    intro i; rw [hits, hots]; unfold Rdft2S.rstride Rdft2S.cstride; cases p.kind <;> rfl
  have hout : ∀ i : ℕ, out2 p.kind (p.r0 + (i : ℤ) * its) (p.cr + (i : ℤ) * ots) = out2 p.kind p.r0 p.cr + (i : ℤ) * (d.os * (bs : ℤ)) := by
    intro i; rw [hits, hots]; unfold Rdft2S.rstride Rdft2S.cstride; cases p.kind <;> rfl
  have hapi : ∀ i < count d.n fl.nthr, p.r0 ≠ p.cr → HApart (half2 p.kind (lastDim p.sz) (p.r1 - p.r0) (p.ci - p.cr))
      (append (some p.sz.dropLast) (some (v.set vdim ⟨blockLen d.n fl.nthr i, d.is, d.os⟩)))
      (in2 p.kind (p.r0 + (i : ℤ) * its) (p.cr + (i : ℤ) * ots)) (out2 p.kind (p.r0 + (i : ℤ) * its) (p.cr + (i : ℤ) * ots)) := by
    intro i hi hne
    have h1 := hap hne
    rw [hv] at h1
    have key : ∀ x ∈ pairs (append (some p.sz.dropLast) (some (v.set vdim ⟨blockLen d.n fl.nthr i, d.is, d.os⟩))),
        ((i : ℤ) * (d.is * (bs : ℤ)), (i : ℤ) * (d.os * (bs : ℤ))) + x ∈ pairs (append (some p.sz.dropLast) (some v)) := by
      intro x hx
      rw [pairs_app] at hx ⊢
      obtain ⟨y, hy, hx⟩ := Multiset.mem_bind.1 hx
      obtain ⟨z, hz, rfl⟩ := Multiset.mem_map.1 hx
      refine Multiset.mem_bind.2 ⟨y, hy, Multiset.mem_map.2 ⟨((i : ℤ) * (d.is * (bs : ℤ)), (i : ℤ) * (d.os * (bs : ℤ))) + z, ?_, by abel⟩⟩
      rw [hpb]
      exact Multiset.mem_bind.2 ⟨i, Multiset.mem_range.2 hi, Multiset.mem_map_of_mem _ hz⟩
    intro a ha b hb
    obtain ⟨ab, hab, j, hj, rfl⟩ := mem_hIns.1 ha
    obtain ⟨cd, hcd, t, ht, rfl⟩ := mem_hOuts.1 hb
    rw [hin, hout, Ptr.add_add, Ptr.add_add]
    refine h1 _ (mem_hIns.2 ⟨_, key _ hab, j, hj, ?_⟩) _ (mem_hOuts.2 ⟨_, key _ hcd, t, ht, ?_⟩)
    · simp only [Prod.fst_add]; ring
    · simp only [Prod.snd_add]; ring
  have hlast : 0 < (lastDim p.sz).n := by
    rcases List.eq_nil_or_concat p.sz with h | ⟨l, e, h⟩
    · rw [h]; exact Nat.one_pos
    · have := hp e (by rw [h]; simp)
      rw [h]
      simpa [lastDim] using this
  have hA0 : (half2 p.kind (lastDim p.sz) (p.r1 - p.r0) (p.ci - p.cr)).A 0 = 0 ∧ 0 < (half2 p.kind (lastDim p.sz) (p.r1 - p.r0) (p.ci - p.cr)).na := by
    cases p.kind <;> exact ⟨zig_zero _ _, by simp [half2, r2cHalf, c2rHalf, hlast]⟩
  have hB0 : (half2 p.kind (lastDim p.sz) (p.r1 - p.r0) (p.ci - p.cr)).B 0 = 0 ∧ 0 < (half2 p.kind (lastDim p.sz) (p.r1 - p.r0) (p.ci - p.cr)).nb := by
    cases p.kind <;> exact ⟨zig_zero _ _, by simp [half2, r2cHalf, c2rHalf, hlast]⟩
  have hsame : ∀ i < count d.n fl.nthr, (p.r0 + (i : ℤ) * its = p.cr + (i : ℤ) * ots) ↔ p.r0 = p.cr := by
    intro i hi
    constructor
    · intro h
      by_contra hne
      have h0 : (0 : ℤ × ℤ) ∈ pairs (append (some p.sz.dropLast) (some (v.set vdim ⟨blockLen d.n fl.nthr i, d.is, d.os⟩))) := by
        refine zero_mem_pairs ?_
        intro e he
        rcases List.mem_append.1 he with he | he
        · exact hp e (List.mem_of_mem_dropLast he)
        · rcases set_mem he with he | rfl
          · exact hvp e he
          · exact (block_end hdn hT hi).2
      refine hapi i hi hne 0 (mem_hIns.2 ⟨0, h0, 0, hA0.2, by rw [hA0.1]; simp⟩) 0 (mem_hOuts.2 ⟨0, h0, 0, hB0.2, by rw [hB0.1]; simp⟩) ?_
      cases p.kind
      · simpa [in2, out2] using h
      · simpa [in2, out2] using h.symm
    · intro h; rw [h, hio h]
  refine (good_collect (Q := fun i c => HOK (half2 p.kind (lastDim p.sz) (p.r1 - p.r0) (p.ci - p.cr)) (tag p.sz.dropLast)
      (some (v.set vdim ⟨blockLen d.n fl.nthr i, d.is, d.os⟩)) (decide (p.r0 = p.cr)) fl.nd
      (run2 p.kind (p.r1 - p.r0) (p.ci - p.cr) c.rdft2Apply)) _ ?_).bind ?_
  · intro i hi
    refine ⟨?_, ?_⟩
    · refine kosher_mkproblemRdft2 (kosher_rdft2_blk hk) hn ?_ hp ?_ ?_
      · rw [nonNegV_some]
        intro e he
        rcases set_mem he with he | rfl
        · exact hvn e he
        · exact hvn d hdm
      · intro h
        have h := (hsame i hi).1 h
        refine ⟨(he h).1, fun l hl e hem => ?_⟩
        obtain rfl := Option.some.inj hl
        rcases set_mem hem with hem | rfl
        · exact (he h).2 v hv e hem
        · exact hstr h
      · intro hne
        rw [ptr_sub_shift, ptr_sub_shift]
        exact hapi i hi fun h => hne ((hsame i hi).2 h)
    · rintro r hr c rfl
      have hc := hr c rfl
      rw [nd_nthr] at hc
      have hH := sound_mkproblemRdft2 hc
      rw [ptr_sub_shift, ptr_sub_shift, decide_eq_decide.2 (hsame i hi)] at hH
      exact hH
  · intro r hr
    cases r with
    | none => exact good_nada
    | some cldrn =>
      obtain ⟨hlen, hq⟩ := hr cldrn rfl
      apply good_ret
      refine soundRdft2 (by simp [hv]) ?_
      rw [hv]
      refine (HOK_spawn S (m := count d.n fl.nthr) (vecs := fun i => some (v.set vdim ⟨blockLen d.n fl.nthr i, d.is, d.os⟩))
        (voff := fun i => ((i : ℤ) * (d.is * (bs : ℤ)), (i : ℤ) * (d.os * (bs : ℤ))))
        (ip := fun _ => decide (p.r0 = p.cr)) (f := fun i I O => nth cldrn i fun cld => run2 p.kind (p.r1 - p.r0) (p.ci - p.cr) cld.rdft2Apply I O)
        hpb ?_ ?_ (fun i hi h => Or.inl h)).congr ?_
      · intro i hi
        obtain ⟨c, hc, hrun⟩ := nth_eq (l := cldrn) (i := i) (by omega)
        refine (hq i c hc).congr fun I O st => ?_
        rw [hrun]
      · intro i hi h
        exact ⟨h, by simp only; rw [hstr (of_decide_eq_true h)]⟩
      · intro I O st
        rw [hits, hots]
        unfold run2 Rdft2S.rstride Rdft2S.cstride
        cases p.kind
        all_goals
          dsimp only
          congr 1
          funext i st
          congr 1
          funext c
          simp only [Ptr.add_add]
          rw [add_comm ((i : ℤ) * (d.is * _)), add_comm ((i : ℤ) * (d.os * _))]

end FFTW
