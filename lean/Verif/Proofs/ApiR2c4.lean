import Verif.Proofs.ApiR2c3

namespace FFTW.Api
open Tensor Spec DftS Planner RowMajor

variable [CLib]

/-! ### row-major arrays with a halved or padded last dimension -/

theorem rowMajor_snoc (es : List ℤ) (e : ℤ) (j : List ℕ) (i : ℕ) (h : es.length = j.length) :
    rowMajor (es ++ [e]) (j ++ [i]) = rowMajor es j * e + i := by
  unfold rowMajor
  rw [List.zip_append h, List.foldl_append]
  rfl

theorem rowMajor_first (es : List ℤ) : rowMajor es [0] = 0 := by
  cases es <;> simp [rowMajor]

/-- the extents of all dimensions of an advanced or basic call but the last -/
def leadN (n : List Int) : List ℕ := n.dropLast.map (·.toNat)
/-- the extent of the last dimension; rank 0 means one element -/
def lastN (n : List Int) : ℕ := (n.getLast?.getD 1).toNat

theorem snocN {n : List Int} (h : n ≠ []) : n.dropLast ++ [n.getLast?.getD 1] = n := by
  rw [List.getLast?_eq_some_getLast h]
  exact List.dropLast_append_getLast h

theorem cast_map {n : List Int} (hp : ∀ x ∈ n, 0 < x) : (n.map (·.toNat)).map (fun x : ℕ => (x : ℤ)) = n := by
  rw [List.map_map]
  conv_rhs => rw [← List.map_id n]
  refine List.map_congr_left fun x hx => ?_
  have := hp x hx
  simp; omega

theorem last_pos {n : List Int} (hp : ∀ x ∈ n, 0 < x) : 0 < n.getLast?.getD 1 := by
  by_cases h : n = []
  · subst h; simp
  · rw [List.getLast?_eq_some_getLast h]; exact hp _ (List.getLast_mem h)

theorem pad_real {n : List Int} (h : n ≠ []) (hp : ∀ x ∈ n, 0 < x) (e : Option (List Int)) (inplace : Bool) :
    (rdft2Pad n e inplace false).getD [] = e.getD (realEmbed inplace (leadN n) (lastN n)) := by
  cases e with
  | some e => rfl
  | none =>
    have hl := last_pos hp
    have hd := cast_map fun x hx => hp x (List.mem_of_mem_dropLast hx)
    unfold rdft2Pad realEmbed leadN lastN
    rw [hd]
    obtain ⟨l, hgl⟩ : ∃ l, n.getLast? = some l := ⟨_, List.getLast?_eq_some_getLast h⟩
    have hs := snocN h
    simp only [hgl, Option.getD_some, Option.getD_none, Bool.false_eq_true, or_false, if_false] at hl hs ⊢
    cases inplace
    · simp only [Bool.false_eq_true, if_false, Option.getD_some, Int.toNat_of_nonneg hl.le]; exact hs.symm
    · simp only [if_true, Option.getD_some]
      congr 2
      rw [Int.tdiv_eq_ediv_of_nonneg hl.le]; push_cast; rw [Int.toNat_of_nonneg hl.le]; ring

theorem pad_cplx {n : List Int} (h : n ≠ []) (hp : ∀ x ∈ n, 0 < x) (e : Option (List Int)) (inplace : Bool) :
    (rdft2Pad n e inplace true).getD [] = e.getD (cplxEmbed (leadN n) (lastN n)) := by
  cases e with
  | some e => rfl
  | none =>
    have hl := last_pos hp
    have hd := cast_map fun x hx => hp x (List.mem_of_mem_dropLast hx)
    unfold rdft2Pad cplxEmbed leadN lastN
    rw [hd]
    obtain ⟨l, hgl⟩ : ∃ l, n.getLast? = some l := ⟨_, List.getLast?_eq_some_getLast h⟩
    simp only [hgl, Option.getD_some, Option.getD_none, or_true, if_true, add_zero, mul_one] at hl ⊢
    congr 2
    rw [Int.tdiv_eq_ediv_of_nonneg hl.le]; push_cast; rw [Int.toNat_of_nonneg hl.le]

theorem realEmbed_length (b : Bool) (n : List ℕ) (m : ℕ) : (realEmbed b n m).length = n.length + 1 := by simp [realEmbed]
theorem cplxEmbed_length (n : List ℕ) (m : ℕ) : (cplxEmbed n m).length = n.length + 1 := by simp [cplxEmbed]

theorem dot_last (f : Dim → ℤ) {sz : List Dim} (hne : sz ≠ []) {j : List ℕ} (hj : j.length = sz.dropLast.length) (i : ℕ) :
    dot (sz.map f) (j ++ [i]) = dot (sz.dropLast.map f) j + f (lastDim sz) * i := by
  have hl : lastDim sz = sz.getLast hne := by rw [lastDim, List.getLast?_eq_some_getLast hne]; rfl
  conv_lhs => rw [← List.dropLast_append_getLast hne]
  rw [List.map_append, dot_append (by simp [hj]), hl]
  simp [dot_cons, dot_nil]

/-- dimensions of an advanced call, either kind: `x` is the real embedding, `y` the complex one -/
theorem geo_many {k : R2Kind} {n x y : List Int} (hx : x.length = n.length) (hy : y.length = n.length) (hp : ∀ a ∈ n, 0 < a)
    (hx0 : ∀ e ∈ x, 0 ≤ e) (hy0 : ∀ e ∈ y, 0 ≤ e) {rs rd cs cd : ℤ} (h1 : 0 ≤ rs) (h2 : 0 ≤ rd) (h3 : 0 ≤ cs) (h4 : 0 ≤ cd) {v : ℕ}
    {sz : List Dim} {lp : Dim}
    (hsz : sz = match k with | .R2HC => rmDims (n.zip (x.zip y)) rs (2 * cs) | .HC2R => rmDims (n.zip (y.zip x)) (2 * cs) rs)
    (hlp : lp = match k with | .R2HC => ⟨v, rd, 2 * cd⟩ | .HC2R => ⟨v, 2 * cd, rd⟩) {re ce : List Int} (hre : n ≠ [] → re = x) (hce : n ≠ [] → ce = y) :
    Geo (manyR (leadN n) (lastN n) v re rs rd ce cs cd) k 2 sz [lp] := by
  have hn : sz.map (·.n) = n.map (·.toNat) := by
    subst hsz
    cases k
    · dsimp only; rw [rmDims_n]
      conv_rhs => rw [← (zip3 hx hy).1, List.map_map]
      rfl
    · dsimp only; rw [rmDims_n]
      conv_rhs => rw [← (zip3 hy hx).1, List.map_map]
      rfl
  have hlen : sz.length = n.length := by have := congrArg List.length hn; simpa using this
  have hsn : sz = [] ↔ n = [] := by rw [← List.length_eq_zero_iff, hlen, List.length_eq_zero_iff]
  have hr : ∀ j : List ℕ, j.length = n.length → dot (sz.map (rst k)) j = rs * rowMajor x j := by
    intro j hj
    subst hsz
    cases k
    · have := rmDims_is (n.zip (x.zip y)) rs (2 * cs) j (by simp [hj, hx, hy]); rwa [(zip3 hx hy).2.1] at this
    · have := rmDims_os (n.zip (y.zip x)) (2 * cs) rs j (by simp [hj, hx, hy]); rwa [(zip3 hy hx).2.2] at this
  have hcq : ∀ j : List ℕ, j.length = n.length → dot (sz.map (cst k)) j = 2 * cs * rowMajor y j := by
    intro j hj
    subst hsz
    cases k
    · have := rmDims_os (n.zip (x.zip y)) rs (2 * cs) j (by simp [hj, hx, hy]); rwa [(zip3 hx hy).2.2] at this
    · have := rmDims_is (n.zip (y.zip x)) (2 * cs) rs j (by simp [hj, hx, hy]); rwa [(zip3 hy hx).2.1] at this
  have hdn : sz.dropLast.map (·.n) = leadN n := by rw [List.map_dropLast, hn, leadN, List.map_dropLast]
  have hln : (lastDim sz).n = lastN n := by
    have := congrArg (fun l => l.getLast?.getD 1) hn
    simp only [List.getLast?_map] at this
    unfold lastDim lastN
    cases h : sz.getLast? with
    | none =>
      have : n = [] := hsn.1 (List.getLast?_eq_none_iff.1 h)
      subst this; rfl
    | some d =>
      rw [h] at this
      cases h' : n.getLast? with
      | none =>
        have e := hsn.2 (List.getLast?_eq_none_iff.1 h')
        rw [e] at h; simp at h
      | some d' => rw [h'] at this; simpa using this
  have hnn : FFTW.NonNeg sz := by
    subst hsz
    cases k
    · refine rmDims_nonneg _ h1 (by omega) fun e he => ?_
      obtain ⟨_, he2⟩ := List.of_mem_zip (a := e.1) (b := e.2) he
      obtain ⟨he3, he4⟩ := List.of_mem_zip (a := e.2.1) (b := e.2.2) he2
      exact ⟨hx0 _ he3, hy0 _ he4⟩
    · refine rmDims_nonneg _ (by omega) h1 fun e he => ?_
      obtain ⟨_, he2⟩ := List.of_mem_zip (a := e.1) (b := e.2) he
      obtain ⟨he3, he4⟩ := List.of_mem_zip (a := e.2.1) (b := e.2.2) he2
      exact ⟨hy0 _ he3, hx0 _ he4⟩
  have hpos : Pos sz := by
    intro d hd
    have : d.n ∈ sz.map (·.n) := List.mem_map_of_mem hd
    rw [hn] at this
    obtain ⟨e, he, h0⟩ := List.mem_map.1 this
    have := hp e he
    omega
  refine ⟨hdn.symm, hln.symm, ?_, ?_, ?_, hnn, ?_, hpos, by norm_num⟩
  · subst hlp; cases k <;> rfl
  · intro b j i hb hj hi
    have hb' : Box [v] b := hb
    obtain ⟨a, as, _, h0, rfl⟩ := box_cons.1 hb'
    obtain rfl := box_nil.1 h0
    have hjl : j.length = (leadN n).length := box_length hj
    have hd : dot ([lp].map (rst k)) [a] = a * rd := by subst hlp; cases k <;> simp [dot_cons, dot_nil, rst, mul_comm]
    rw [hd]
    by_cases hne : n = []
    · have hs0 := hsn.2 hne
      subst hne
      obtain rfl : j = [] := by simpa [leadN] using hjl
      have hi' : i < 1 := hi
      obtain rfl : i = 0 := by omega
      rw [hs0]
      simp [manyR, rowMajor_first, dot_nil]
    · have hs0 := mt hsn.1 hne
      have hjs : j.length = sz.dropLast.length := by rw [hjl, ← hdn]; simp
      have := hr (j ++ [i]) (by rw [List.length_append, hjs]; have := List.length_pos_iff.2 hs0; simp; omega)
      rw [dot_last _ hs0 hjs] at this
      rw [add_assoc, this, hre hne]
      simp [manyR]
  · intro b j i hb hj hi
    have hb' : Box [v] b := hb
    obtain ⟨a, as, _, h0, rfl⟩ := box_cons.1 hb'
    obtain rfl := box_nil.1 h0
    have hjl : j.length = (leadN n).length := box_length hj
    have hd : dot ([lp].map (cst k)) [a] = 2 * (a * cd) := by subst hlp; cases k <;> simp [dot_cons, dot_nil, cst] <;> ring
    rw [hd]
    by_cases hne : n = []
    · have hs0 := hsn.2 hne
      subst hne
      obtain rfl : j = [] := by simpa [leadN] using hjl
      have hi' : i ≤ 1 / 2 := hi
      obtain rfl : i = 0 := by omega
      rw [hs0]
      simp [manyR, rowMajor_first, dot_nil]
    · have hs0 := mt hsn.1 hne
      have hjs : j.length = sz.dropLast.length := by rw [hjl, ← hdn]; simp
      have := hcq (j ++ [i]) (by rw [List.length_append, hjs]; have := List.length_pos_iff.2 hs0; simp; omega)
      rw [dot_last _ hs0 hjs] at this
      rw [add_assoc, this, hce hne]
      simp [manyR]; ring
  · intro d hd
    obtain rfl := List.mem_singleton.1 hd
    subst hlp
    cases k
    · exact ⟨h2, by show 0 ≤ 2 * cd; omega⟩
    · exact ⟨by show 0 ≤ 2 * cd; omega, h2⟩

/-! ### the arrays of the basic interface -/

/-- one contiguous row-major array of reals (padded if in place) and one of complex numbers -/
abbrev basicR (inplace : Bool) (n : List Int) : RBatch :=
  manyR (leadN n) (lastN n) 1 (realEmbed inplace (leadN n) (lastN n)) 1 1 (cplxEmbed (leadN n) (lastN n)) 1 1

theorem div_unique {K K' R i i' : ℤ} (h0 : 0 ≤ i) (h1 : i < R) (h0' : 0 ≤ i') (h1' : i' < R) (h : K * R + i = K' * R + i') : K = K' ∧ i = i' := by
  have hK : K = K' := by
    rcases lt_trichotomy K K' with hh | hh | hh
    · nlinarith
    · exact hh
    · nlinarith
  subst hK
  exact ⟨rfl, by linarith⟩

/-- row length of the real array -/
def rowR (inplace : Bool) (m : ℕ) : ℤ := if inplace then 2 * ((m / 2 + 1 : ℕ) : ℤ) else (m : ℤ)

theorem basic_real {ip : Bool} {n : List Int} {b j : List ℕ} {i : ℕ} (hb : Box [1] b) (hj : Box (leadN n) j) :
    (basicR ip n).real b j i = rowMajor ((leadN n).map fun x : ℕ => (x : ℤ)) j * rowR ip (lastN n) + i := by
  obtain ⟨a, as, ha, h0, rfl⟩ := box_cons.1 hb
  obtain rfl : a = 0 := by omega
  simp only [basicR, manyR, realEmbed, List.headD_cons]
  rw [rowMajor_snoc _ _ _ _ (by simp [box_length hj])]
  simp [rowR]

theorem basic_cplx {ip : Bool} {n : List Int} {b j : List ℕ} {i : ℕ} (hb : Box [1] b) (hj : Box (leadN n) j) :
    (basicR ip n).cplx b j i = rowMajor ((leadN n).map fun x : ℕ => (x : ℤ)) j * ((lastN n / 2 + 1 : ℕ) : ℤ) + i := by
  obtain ⟨a, as, ha, h0, rfl⟩ := box_cons.1 hb
  obtain rfl : a = 0 := by omega
  simp only [basicR, manyR, cplxEmbed, List.headD_cons]
  rw [rowMajor_snoc _ _ _ _ (by simp [box_length hj])]
  simp

theorem rowR_le (ip : Bool) (m : ℕ) : (m : ℤ) ≤ rowR ip m := by
  unfold rowR; split <;> push_cast <;> omega

theorem lead_pos {n : List Int} (hp : ∀ x ∈ n, 0 < x) : ∀ x ∈ leadN n, 0 < x := by
  intro x hx
  obtain ⟨y, hy, rfl⟩ := List.mem_map.1 hx
  have := hp y (List.mem_of_mem_dropLast hy); omega

theorem box_one {b b' : List ℕ} (h : Box [1] b) (h' : Box [1] b') : b = b' := by
  obtain ⟨a, as, ha, h0, rfl⟩ := box_cons.1 h
  obtain ⟨c, cs, hc, h0', rfl⟩ := box_cons.1 h'
  rw [box_nil.1 h0, box_nil.1 h0']
  congr 1; omega

theorem basic_realInj (ip : Bool) {n : List Int} (hp : ∀ x ∈ n, 0 < x) : (basicR ip n).RealInj := by
  intro b j i b' j' i' hb hj hi hb' hj' hi' he
  rw [basic_real hb hj, basic_real hb' hj'] at he
  have hl := rowR_le ip (lastN n)
  have hi1 : i < lastN n := hi
  have hi2 : i' < lastN n := hi'
  obtain ⟨h1, h2⟩ := div_unique (by omega) (by omega) (by omega) (by omega) he
  exact ⟨box_one hb hb', rowMajor_inj (lead_pos hp) hj hj' h1, by omega⟩

theorem basic_cplxInj (ip : Bool) {n : List Int} (hp : ∀ x ∈ n, 0 < x) : (basicR ip n).CplxInj := by
  intro b j i b' j' i' hb hj hi hb' hj' hi' he
  rw [basic_cplx hb hj, basic_cplx hb' hj'] at he
  have hi1 : i ≤ lastN n / 2 := hi
  have hi2 : i' ≤ lastN n / 2 := hi'
  obtain ⟨h1, h2⟩ := div_unique (by omega) (by push_cast; omega) (by omega) (by push_cast; omega) he
  exact ⟨box_one hb hb', rowMajor_inj (lead_pos hp) hj hj' h1, by omega⟩

theorem basic_row {n : List Int} {p q : Ptr} {b j : List ℕ} (hb : Box [1] b) (hj : Box (leadN n) j)
    (h : (basicR true n).Row p (.interleaved p) b j q) : ∃ y : ℤ, 0 ≤ y ∧ y < 2 * ((lastN n / 2 + 1 : ℕ) : ℤ) ∧
      q = p + (rowMajor ((leadN n).map fun x : ℕ => (x : ℤ)) j * (2 * ((lastN n / 2 + 1 : ℕ) : ℤ)) + y) := by
  rcases h with ⟨x, ⟨i, hi, rfl⟩, rfl⟩ | ⟨x, ⟨i, hi, rfl⟩, rfl | rfl⟩
  · rw [basic_real hb hj]
    have hi1 : i < lastN n := hi
    exact ⟨i, by omega, by push_cast; omega, rfl⟩
  · rw [basic_cplx hb hj]
    have hi1 : i ≤ lastN n / 2 := hi
    refine ⟨2 * i, by omega, by push_cast; omega, ?_⟩
    show p + _ = _; congr 1; ring
  · rw [basic_cplx hb hj]
    have hi1 : i ≤ lastN n / 2 := hi
    refine ⟨2 * i + 1, by omega, by push_cast; omega, ?_⟩
    show p + _ = _; congr 1; ring

theorem basic_inPlace {n : List Int} (hp : ∀ x ∈ n, 0 < x) (p : Ptr) : (basicR true n).InPlace p (.interleaved p) := by
  refine ⟨?_, ?_, ?_⟩
  · intro x hx
    have : x ∈ [1] := hx
    simp at this; omega
  · intro b j hb hj
    rw [basic_real hb hj, basic_cplx hb hj]
    show p + _ = p + _
    congr 1
    simp [rowR]; ring
  · intro b j b' j' q hb hj hb' hj' h h'
    obtain ⟨y, y0, y1, hy⟩ := basic_row hb hj h
    obtain ⟨z, z0, z1, hz⟩ := basic_row hb' hj' h'
    rw [hy] at hz
    obtain ⟨h1, _⟩ := div_unique y0 y1 z0 z1 (Ptr.add_inj.1 hz)
    exact ⟨box_one hb hb', rowMajor_inj (lead_pos hp) hj hj' h1⟩

end FFTW.Api
