import Verif.Proofs.ApiR2c2
import Verif.Props.ApiR2r
import Verif.Props.ApiSplit

namespace FFTW.Api
open Tensor Spec DftS Planner RowMajor
open MapFlags (U32 FFTW_PRESERVE_INPUT FFTW_DESTROY_INPUT)

/-! ### guru dimensions -/

/-- strides counted in reals -/
def scl (a b : ℤ) (d : Dim) : Dim := ⟨d.n, a * d.is, b * d.os⟩

theorem iodims_eq2 {chk : Int → C Int} (hc : ∀ x y, chk x = some y → y = x) (a b : ℤ) (dims : List IODim) (sz : List Dim)
    (h : mktensorIodims chk dims a b = some sz) : sz = (dims.map ofIo).map (scl a b) := by
  induction dims generalizing sz with
  | nil => simpa [mktensorIodims] using h.symm
  | cons d l ih =>
    unfold mktensorIodims at h ih
    rw [List.mapM_cons] at h
    simp only [Option.bind_eq_bind, Option.pure_def] at h
    obtain ⟨e, he, h⟩ := Option.bind_eq_some_iff.1 h
    obtain ⟨i, hi, he⟩ := Option.bind_eq_some_iff.1 he
    obtain ⟨o, ho, he⟩ := Option.bind_eq_some_iff.1 he
    obtain ⟨t, ht, h⟩ := Option.bind_eq_some_iff.1 h
    rw [ih t (by simpa [Option.bind_eq_bind, Option.pure_def] using ht)] at h
    obtain rfl := Option.some.inj he
    obtain rfl := Option.some.inj h
    rw [hc _ _ hi, hc _ _ ho]
    simp [ofIo, scl, mul_comm]

theorem lastDim_scl (a b : ℤ) (D : List Dim) : lastDim (D.map (scl a b)) = scl a b (lastOf D) := by
  rw [lastDim, lastOf, List.getLast?_map]
  cases D.getLast? with
  | none => simp [scl]
  | some d => rfl

theorem dropLast_scl (a b : ℤ) (D : List Dim) : (D.map (scl a b)).dropLast = D.dropLast.map (scl a b) := by rw [List.map_dropLast]

theorem nonneg_scl {a b : ℤ} (ha : 0 ≤ a) (hb : 0 ≤ b) {D : List Dim} (h : FFTW.NonNeg D) : FFTW.NonNeg (D.map (scl a b)) := by
  intro d hd
  obtain ⟨e, he, rfl⟩ := List.mem_map.1 hd
  exact ⟨mul_nonneg ha (h e he).1, mul_nonneg hb (h e he).2⟩

theorem pos_scl {a b : ℤ} {D : List Dim} (h : Pos D) : Pos (D.map (scl a b)) := by
  intro d hd
  obtain ⟨e, he, rfl⟩ := List.mem_map.1 hd
  exact h e he

theorem dot_mul (c : ℤ) (l : List Dim) (f : Dim → ℤ) (j : List ℕ) : dot (l.map fun d => c * f d) j = c * dot (l.map f) j := by
  have := dot_scale c (l.map f) j
  rwa [List.map_map] at this

theorem geo_r2c {c : ℤ} (hc : 0 < c) {D L : List Dim} (h1 : FFTW.NonNeg D) (h2 : FFTW.NonNeg L) (h0 : Pos D) :
    Geo (guruR2c D L) .R2HC c (D.map (scl 1 c)) (L.map (scl 1 c)) := by
  have e1 : (fun d : Dim => rst .R2HC (scl 1 c d)) = fun d => 1 * d.is := rfl
  have e2 : (fun d : Dim => cst .R2HC (scl 1 c d)) = fun d => c * d.os := rfl
  refine ⟨?_, ?_, ?_, ?_, ?_, nonneg_scl (by norm_num) hc.le h1, nonneg_scl (by norm_num) hc.le h2, pos_scl h0, hc⟩
  · rw [dropLast_scl, List.map_map]; rfl
  · rw [lastDim_scl]; rfl
  · rw [List.map_map]; rfl
  · intro b j i _ _ _
    rw [lastDim_scl, dropLast_scl, List.map_map, List.map_map]
    simp only [Function.comp_def, e1, dot_mul, guruR2c, rst, scl]; ring
  · intro b j i _ _ _
    rw [lastDim_scl, dropLast_scl, List.map_map, List.map_map]
    simp only [Function.comp_def, e2, dot_mul, guruR2c, cst, scl]; ring

theorem geo_c2r {c : ℤ} (hc : 0 < c) {D L : List Dim} (h1 : FFTW.NonNeg D) (h2 : FFTW.NonNeg L) (h0 : Pos D) :
    Geo (guruC2r D L) .HC2R c (D.map (scl c 1)) (L.map (scl c 1)) := by
  have e1 : (fun d : Dim => rst .HC2R (scl c 1 d)) = fun d => 1 * d.os := rfl
  have e2 : (fun d : Dim => cst .HC2R (scl c 1 d)) = fun d => c * d.is := rfl
  refine ⟨?_, ?_, ?_, ?_, ?_, nonneg_scl hc.le (by norm_num) h1, nonneg_scl hc.le (by norm_num) h2, pos_scl h0, hc⟩
  · rw [dropLast_scl, List.map_map]; rfl
  · rw [lastDim_scl]; rfl
  · rw [List.map_map]; rfl
  · intro b j i _ _ _
    rw [lastDim_scl, dropLast_scl, List.map_map, List.map_map]
    simp only [Function.comp_def, e1, dot_mul, guruC2r, rst, scl]; ring
  · intro b j i _ _ _
    rw [lastDim_scl, dropLast_scl, List.map_map, List.map_map]
    simp only [Function.comp_def, e2, dot_mul, guruC2r, cst, scl]; ring

/-! ### complex arrays -/

theorem interleaved_carr (c : Ptr) : CArr.interleaved c = carr c 2 1 := rfl
theorem split_carr {r i : Ptr} (h : i.blk = r.blk) : CArr.split r i = carr r 1 (i - r) := by
  unfold CArr.split carr
  congr 1 <;> funext x
  · rw [one_mul]
  · rw [one_mul]; refine Ptr.ext h ?_; show i.off + x = r.off + (x + (i.off - r.off)); ring

theorem interleaved_apart (c : Ptr) (P : ℤ → Prop) : (CArr.interleaved c).PartsApart P := by
  intro x y _ _ h
  have : 2 * x = 2 * y + 1 := Ptr.add_inj.1 h
  omega

theorem interleaved_zero (c : Ptr) : (CArr.interleaved c).re 0 = c := carr_zero c 2 1
theorem split_zero (r i : Ptr) : (CArr.split r i).re 0 = r := Ptr.ext rfl (by show r.off + 0 = r.off; ring)

/-! ### flags of c2r plans -/

theorem has_bit' (w : U32) (k : Nat) (hk : k < 32) : Props.Has w (1#32 <<< k) ↔ w.getLsbD k = true := by
  unfold Props.Has
  rw [BitVec.setWidth_eq]
  constructor
  · intro h
    by_contra hn
    apply h
    apply BitVec.eq_of_getLsbD_eq
    intro i hi
    rw [BitVec.getLsbD_and, BitVec.getLsbD_shiftLeft]
    by_cases e : i = k
    · subst e; simp only [Bool.not_eq_true] at hn; simp [hn]
    · have : (1#32).getLsbD (i - k) = false ∨ i < k := by
        rcases Nat.lt_or_ge i k with h | h
        · exact Or.inr h
        · left
          rw [show i - k = (i - k - 1) + 1 by omega]
          simp
      rcases this with h | h
      · rw [h]; simp
      · simp [h]
  · intro h h0
    have := congrArg (fun v => v.getLsbD k) h0
    simp [BitVec.getLsbD_and, BitVec.getLsbD_shiftLeft, hk] at this
    rw [BitVec.getLsbD_eq_getElem hk] at h
    rw [h] at this
    simp at this

/-- c2r plans of out-of-place problems may destroy their input, unless FFTW_PRESERVE_INPUT was given -/
theorem c2r_preserves {flags : U32} {ri out : Ptr} (h : out ≠ ri) : Preserves (c2rFlags flags ri out) ↔ Props.Has flags FFTW_PRESERVE_INPUT := by
  unfold c2rFlags Preserves
  rw [if_pos h]
  unfold FFTW_PRESERVE_INPUT FFTW_DESTROY_INPUT
  rw [has_bit' _ 4 (by norm_num), has_bit' _ 0 (by norm_num), has_bit' _ 4 (by norm_num), BitVec.getLsbD_or, BitVec.getLsbD_or]
  have e1 : (1#32 <<< 0).getLsbD 4 = false := by decide
  have e2 : (1#32 <<< 0).getLsbD 0 = true := by decide
  rw [e1, e2]; simp

end FFTW.Api
