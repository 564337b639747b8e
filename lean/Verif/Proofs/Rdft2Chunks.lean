import Verif.Proofs.Rdft2Rdft

/-! # Rounds over a buffer, and the remaining rows -/

namespace FFTW
open Tensor Spec DftS RdftS Finset Api

theorem ptr_sub_shift (p q : Ptr) (w : ℤ) : (p + w - (q + w) : ℤ) = p - q := ptr_shift_sub p q w

theorem tornk1_inpl {v : List Dim} {vd : Dim} (h : tornk1 v = some vd) (he : ∀ d ∈ v, d.is = d.os) : vd.is = vd.os := by
  match v, h with
  | [], h => obtain rfl := Option.some.inj h; rfl
  | [d], h => obtain rfl := Option.some.inj h; exact he d (by simp)

theorem tornk1_pos {v : List Dim} {vd : Dim} (h : tornk1 v = some vd) (he : Pos v) : 0 < vd.n := by
  match v, h with
  | [], h => obtain rfl := Option.some.inj h; exact Nat.one_pos
  | [d], h => obtain rfl := Option.some.inj h; exact he d (by simp)

variable [CLib]

/-- the problem of the remaining rows -/
theorem rest_kosher {p : Rdft2P} (hk : Kosher (.rdft2 p)) {d : Dim} {v : List Dim} {vl nb : ℕ} {ivs ovs rd cd : ℤ}
    (hsz : p.sz = [d]) (hv : p.vecsz = some v) (ht : tornk1 v = some ⟨vl, ivs, ovs⟩)
    (hR : p.kind = .R2HC → rd = ((vl / nb * nb : ℕ) : ℤ) * ivs ∧ cd = ((vl / nb * nb : ℕ) : ℤ) * ovs)
    (hH : p.kind = .HC2R → cd = ((vl / nb * nb : ℕ) : ℤ) * ivs ∧ rd = ((vl / nb * nb : ℕ) : ℤ) * ovs) :
    Kosher (mkproblemRdft2 p.sz (some [⟨vl % nb, ivs, ovs⟩]) (p.r0 + rd) (p.r1 + rd) (p.cr + cd) (p.ci + cd) p.kind) ∧
    ∀ nd c, Sound nd (mkproblemRdft2 p.sz (some [⟨vl % nb, ivs, ovs⟩]) (p.r0 + rd) (p.r1 + rd) (p.cr + cd) (p.ci + cd) p.kind) c →
      ∃ ip2 : Bool, HOK (half2 p.kind d (p.r1 - p.r0) (p.ci - p.cr)) [] (some [⟨vl % nb, ivs, ovs⟩]) ip2 nd
        (run2 p.kind (p.r1 - p.r0) (p.ci - p.cr) c.rdft2Apply) ∧ (ip2 = true → decide (p.r0 = p.cr) = true) ∧
        (ip2 = false → decide (p.r0 = p.cr) = false ∨ vl % nb = 0) := by
  obtain ⟨he, hap, hn1, hn0, hvv⟩ := kosher_rdft2 hk
  obtain ⟨hvn, hvp⟩ := hvv v hv
  obtain ⟨hvi, hvo⟩ := tornk1_nonneg ht hvn
  have hq : vl / nb * nb + vl % nb = vl := Nat.div_add_mod' vl nb
  have hpairs := tornk1_pairs ht
  have hlast : lastDim p.sz = d := by rw [hsz]; rfl
  have hdl : p.sz.dropLast = [] := by rw [hsz]; rfl
  have hpl : p.r0 = p.cr → ivs = ovs := fun e => tornk1_inpl ht ((he e).2 v hv)
  have hplw : p.r0 = p.cr → rd = cd := by
    intro e
    cases hkd : p.kind with
    | R2HC => rw [(hR hkd).1, (hR hkd).2, hpl e]
    | HC2R => rw [(hH hkd).1, (hH hkd).2, hpl e]
  have hin : in2 p.kind (p.r0 + rd) (p.cr + cd) = in2 p.kind p.r0 p.cr + ((vl / nb * nb : ℕ) : ℤ) * ivs := by
    cases hkd : p.kind with
    | R2HC => simp only [in2]; rw [(hR hkd).1]
    | HC2R => simp only [in2]; rw [(hH hkd).1]
  have hout : out2 p.kind (p.r0 + rd) (p.cr + cd) = out2 p.kind p.r0 p.cr + ((vl / nb * nb : ℕ) : ℤ) * ovs := by
    cases hkd : p.kind with
    | R2HC => simp only [out2]; rw [(hR hkd).2]
    | HC2R => simp only [out2]; rw [(hH hkd).2]
  have hapr : p.r0 ≠ p.cr → HApart (half2 p.kind d (p.r1 - p.r0) (p.ci - p.cr)) (some [⟨vl % nb, ivs, ovs⟩])
      (in2 p.kind (p.r0 + rd) (p.cr + cd)) (out2 p.kind (p.r0 + rd) (p.cr + cd)) := by
    intro hne a ha b hb
    have h := hap hne
    rw [hlast, hdl, hv] at h
    have h : HApart (half2 p.kind d (p.r1 - p.r0) (p.ci - p.cr)) (some v) (in2 p.kind p.r0 p.cr) (out2 p.kind p.r0 p.cr) := h
    replace h := h.of_pairs hpairs.symm
    obtain ⟨_, hp, i, hi, rfl⟩ := mem_hIns.1 ha
    obtain ⟨_, hp', t, ht', rfl⟩ := mem_hOuts.1 hb
    obtain ⟨j, hj, rfl⟩ := mem_pairs1.1 hp
    obtain ⟨j', hj', rfl⟩ := mem_pairs1.1 hp'
    simp only at hj hj'
    rw [hin, hout, Ptr.add_add, Ptr.add_add]
    refine h _ (mem_hIns.2 ⟨_, mem_pairs1.2 ⟨vl / nb * nb + j, ?_, rfl⟩, i, hi, ?_⟩) _ (mem_hOuts.2 ⟨_, mem_pairs1.2 ⟨vl / nb * nb + j', ?_, rfl⟩, t, ht', ?_⟩)
    · show vl / nb * nb + j < vl; omega
    · push_cast; ring
    · show vl / nb * nb + j' < vl; omega
    · push_cast; ring
  have hA0 : (half2 p.kind d (p.r1 - p.r0) (p.ci - p.cr)).A 0 = 0 ∧ 0 < (half2 p.kind d (p.r1 - p.r0) (p.ci - p.cr)).na := by
    have := hn0 d (by rw [hsz]; simp)
    cases p.kind <;> exact ⟨zig_zero _ _, by simp [half2, r2cHalf, c2rHalf, this]⟩
  have hB0 : (half2 p.kind d (p.r1 - p.r0) (p.ci - p.cr)).B 0 = 0 ∧ 0 < (half2 p.kind d (p.r1 - p.r0) (p.ci - p.cr)).nb := by
    have := hn0 d (by rw [hsz]; simp)
    cases p.kind <;> exact ⟨zig_zero _ _, by simp [half2, r2cHalf, c2rHalf, this]⟩
  have hbad : p.r0 ≠ p.cr → vl % nb ≠ 0 → p.r0 + rd ≠ p.cr + cd := by
    intro e' hr e
    refine hapr e' 0 ?_ 0 ?_ ?_
    · exact mem_hIns.2 ⟨_, mem_pairs1.2 ⟨0, Nat.pos_of_ne_zero hr, rfl⟩, 0, hA0.2, by rw [hA0.1]; simp⟩
    · exact mem_hOuts.2 ⟨_, mem_pairs1.2 ⟨0, Nat.pos_of_ne_zero hr, rfl⟩, 0, hB0.2, by rw [hB0.1]; simp⟩
    · cases p.kind
      · simpa [in2, out2] using e
      · simpa [in2, out2] using e.symm
  refine ⟨kosher_mkproblemRdft2' (kosher_rdft2_blk hk) hn1 ?_ hn0 ?_ ?_, ?_⟩
  · rw [nonNegV_some]; simpa [NonNeg] using ⟨hvi, hvo⟩
  · intro e
    refine ⟨by simp [hdl], ?_⟩
    by_cases e' : p.r0 = p.cr
    · right
      rintro l hl
      obtain rfl := Option.some.inj hl
      simpa using hpl e'
    · by_cases hr : vl % nb = 0
      · left
        exact compressContiguous_empty (by rw [pairs_cons, hr]; simp)
      · exact absurd e (hbad e' hr)
  · intro hne
    rw [ptr_sub_shift, ptr_sub_shift, hlast, hdl]
    by_cases e' : p.r0 = p.cr
    · exact absurd (by rw [e', hplw e']) hne
    · exact hapr e'
  · intro nd c h
    by_cases hr : vl % nb = 0
    · have hz : pairs (some [(⟨vl % nb, ivs, ovs⟩ : Dim)]) = 0 := by rw [pairs_cons, hr]; simp
      have := sound_mkproblemRdft2_empty (sz' := []) hz hz h (half2 p.kind d (p.r1 - p.r0) (p.ci - p.cr)) false
      rw [ptr_sub_shift, ptr_sub_shift] at this
      exact ⟨false, this, by simp, fun _ => Or.inr hr⟩
    · have hG := sound_mkproblemRdft2 h
      rw [ptr_sub_shift, ptr_sub_shift, hlast, hdl] at hG
      refine ⟨_, hG, fun e => ?_, fun e => ?_⟩
      · have e := of_decide_eq_true e
        by_contra h'
        exact hbad (by simpa using h') hr e
      · left
        have e := of_decide_eq_false e
        refine decide_eq_false fun e' => e (by rw [e', hplw e'])

/-- rounds of `nb` rows, then the remaining ones -/
theorem rounds {p : Rdft2P} (hk : Kosher (.rdft2 p)) {d : Dim} {v : List Dim} {vl nb : ℕ} {ivs ovs : ℤ} (hnb : 0 < nb)
    (hsz : p.sz = [d]) (hv : p.vecsz = some v) (ht : tornk1 v = some ⟨vl, ivs, ovs⟩) {nd ip2 : Bool}
    {f g : Ptr → Ptr → Ptr → Ptr → State → State} {F : Ptr → Ptr → Ptr → Ptr → State → State}
    (hf : HOK (half2 p.kind d (p.r1 - p.r0) (p.ci - p.cr)) [] (some [⟨nb, ivs, ovs⟩]) (decide (p.r0 = p.cr)) nd
      (run2 p.kind (p.r1 - p.r0) (p.ci - p.cr) f))
    (hg : HOK (half2 p.kind d (p.r1 - p.r0) (p.ci - p.cr)) [] (some [⟨vl % nb, ivs, ovs⟩]) ip2 nd
      (run2 p.kind (p.r1 - p.r0) (p.ci - p.cr) g))
    (hA : ip2 = true → decide (p.r0 = p.cr) = true) (hB : ip2 = false → decide (p.r0 = p.cr) = false ∨ vl % nb = 0)
    (hF : ∀ I O st, run2 p.kind (p.r1 - p.r0) (p.ci - p.cr) F I O st =
      run2 p.kind (p.r1 - p.r0) (p.ci - p.cr) g (I + ((vl / nb * nb : ℕ) : ℤ) * ivs) (O + ((vl / nb * nb : ℕ) : ℤ) * ovs)
        (forN (vl / nb) (fun i => run2 p.kind (p.r1 - p.r0) (p.ci - p.cr) f (I + (i : ℤ) * ((nb : ℤ) * ivs)) (O + (i : ℤ) * ((nb : ℤ) * ovs))) st)) :
    FFTW.Sound nd (.rdft2 p) (.rdft2 F) := by
  obtain ⟨he, -⟩ := kosher_rdft2 hk
  have hpl : p.r0 = p.cr → ivs = ovs := fun e => tornk1_inpl ht ((he e).2 v hv)
  refine soundRdft2 (by simp [hv]) ?_
  have hlast : lastDim p.sz = d := by rw [hsz]; rfl
  have hdl : p.sz.dropLast = [] := by rw [hsz]; rfl
  rw [hlast, hdl, hv]
  refine HOK.vec_congr ?_ (tornk1_pairs ht)
  have all := HOK_chunks (q := vl / nb) hf hg (fun e => hpl (of_decide_eq_true e)) hA hB
  rw [Nat.div_add_mod' vl nb] at all
  exact all.congr hF

end FFTW
