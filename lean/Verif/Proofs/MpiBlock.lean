import Verif.Model.MpiBlock
import Verif.Proofs.Primes1
import Mathlib.Data.List.Forall2

namespace FFTW.MpiBlock
open FFTW.Primes

/-- arithmetic does not overflow for this dimension -/
def DDim.Ok (d : DDim) : Prop := 1 ≤ d.n ∧ 1 ≤ d.b ∧ d.n + d.b ≤ INT_MAX

/-- number of blocks -/
def DDim.nb (d : DDim) : Int := (d.n + d.b - 1) / d.b

theorem nb_spec {d : DDim} (h : d.Ok) : 1 ≤ d.nb ∧ (d.nb - 1) * d.b < d.n ∧ d.n ≤ d.nb * d.b ∧ d.nb ≤ d.n := by
  obtain ⟨h1, h2, _⟩ := h
  have hd : d.b * d.nb + (d.n + d.b - 1) % d.b = d.n + d.b - 1 := Int.mul_ediv_add_emod _ _
  have h3 := Int.emod_nonneg (d.n + d.b - 1) (show d.b ≠ 0 by omega)
  have h4 := Int.emod_lt_of_pos (d.n + d.b - 1) (show 0 < d.b by omega)
  have e1 : (d.nb - 1) * d.b = d.b * d.nb - d.b := by ring
  have e2 : d.nb * d.b = d.b * d.nb := by ring
  have e3 : (d.nb - 1) * d.b < d.n := by omega
  have e4 : 1 ≤ d.nb := by
    by_contra hc
    have : d.b * d.nb ≤ 0 := Int.mul_nonpos_of_nonneg_of_nonpos (by omega) (by omega)
    omega
  refine ⟨e4, e3, by omega, ?_⟩
  by_contra hc
  have : d.n * 1 ≤ (d.nb - 1) * d.b := Int.mul_le_mul (by omega) h2 (by omega) (by omega)
  omega

theorem numBlocks_some {d : DDim} (h : d.Ok) : numBlocks d.n d.b = some d.nb := by
  obtain ⟨h1, h2, h3⟩ := h
  have h3' := h3
  unfold INT_MAX at h3'
  unfold numBlocks
  rw [cadd_some (by rw [isINT_iff]; omega)]
  simp only [Option.bind_eq_bind, Option.bind_some]
  rw [csub_some (by rw [isINT_iff]; omega)]
  simp only [Option.bind_some]
  rw [cdiv_some (by omega) (by unfold INT_MAX; omega) (by omega)]
  rfl

/-- value of `block` -/
theorem block_some {d : DDim} (h : d.Ok) {w : Int} (hw : 0 ≤ w) (hw2 : w * d.b ≤ INT_MAX) :
    block d.n d.b w = some (max 0 (min d.b (d.n - w * d.b))) := by
  obtain ⟨h1, h2, h3⟩ := h
  have h4 : 0 ≤ w * d.b := Int.mul_nonneg hw (by omega)
  unfold INT_MAX at *
  unfold block
  rw [cmul_some (by rw [isINT_iff]; omega)]
  simp only [Option.bind_eq_bind, Option.bind_some]
  rw [csub_some (by rw [isINT_iff]; omega)]
  simp only [Option.bind_some, pure]
  split
  · congr 1; omega
  · split <;> (congr 1; omega)

theorem coord_mul {d : DDim} (h : d.Ok) {w : Int} (hw2 : w < d.nb) : w * d.b ≤ INT_MAX := by
  have h1 := nb_spec h
  obtain ⟨h2, h3, h4⟩ := h
  have : w * d.b ≤ (d.nb - 1) * d.b := Int.mul_le_mul_of_nonneg_right (by omega) (by omega)
  unfold INT_MAX at *; omega

/-- number of blocks as a product -/
def nbProd (sz : List DDim) : Int := (sz.map DDim.nb).prod

theorem nbProd_pos {sz : List DDim} (h : ∀ d ∈ sz, d.Ok) : 1 ≤ nbProd sz := by
  induction sz with
  | nil => simp [nbProd]
  | cons d ds ih =>
    have h1 := (nb_spec (h d (by simp))).1
    have h2 := ih (fun d hd => h d (by simp [hd]))
    simp only [nbProd, List.map_cons, List.prod_cons] at *
    nlinarith

theorem numBlocksTotal_some {sz : List DDim} (h : ∀ d ∈ sz, d.Ok) (hp : nbProd sz ≤ INT_MAX) : numBlocksTotal sz = some (nbProd sz) := by
  have : ∀ (sz : List DDim) (a : Int), (∀ d ∈ sz, d.Ok) → 1 ≤ a → a * nbProd sz ≤ INT_MAX → numBlocksTotalAux a sz = some (a * nbProd sz) := by
    intro sz
    induction sz with
    | nil => intro a _ _ _; simp [numBlocksTotalAux, nbProd]
    | cons d ds ih =>
      intro a h ha hb
      have h1 := (nb_spec (h d (by simp))).1
      have h2 := nbProd_pos (fun d hd => h d (by simp [hd]) : ∀ d ∈ ds, d.Ok)
      have e : a * nbProd (d :: ds) = (a * d.nb) * nbProd ds := by simp [nbProd]; ring
      rw [e] at hb ⊢
      have h3 : 1 ≤ a * d.nb := by nlinarith
      have h4 : a * d.nb ≤ (a * d.nb) * nbProd ds := by nlinarith
      have h5 : a * d.nb ≤ INT_MAX := le_trans h4 hb
      unfold INT_MAX at h5
      rw [numBlocksTotalAux, numBlocks_some (h d (by simp))]
      simp only [Option.bind_eq_bind, Option.bind_some]
      rw [cmul_some (by rw [isINT_iff]; omega)]
      simp only [Option.bind_some]
      exact ih _ (fun d hd => h d (by simp [hd])) h3 hb
  have := this sz 1 h (le_refl 1) (by simpa using hp)
  simpa [numBlocksTotal] using this

/-- mixed-radix value of a reversed coordinate vector (least significant first) -/
def valRev : List DDim → List Int → Int
  | d :: ds, c :: cs => c + d.nb * valRev ds cs
  | _, _ => 0

/-- coordinates in range -/
def InRange (sz : List DDim) (cs : List Int) : Prop := List.Forall₂ (fun (d : DDim) c => 0 ≤ c ∧ c < d.nb) sz cs

theorem valRev_bounds {sz : List DDim} {cs : List Int} (hok : ∀ d ∈ sz, d.Ok) (h : InRange sz cs) : 0 ≤ valRev sz cs ∧ valRev sz cs < nbProd sz := by
  induction h with
  | nil => simp [valRev, nbProd]
  | @cons d c ds cs hc h ih =>
    obtain ⟨h1, h2⟩ := ih (fun d hd => hok d (by simp [hd]))
    have h3 := (nb_spec (hok d (by simp))).1
    simp only [valRev, nbProd, List.map_cons, List.prod_cons] at *
    constructor
    · nlinarith
    · nlinarith

theorem blockCoordsRev_val {sz : List DDim} {cs : List Int} (hok : ∀ d ∈ sz, d.Ok) (hp : nbProd sz ≤ INT_MAX) (h : InRange sz cs) :
    blockCoordsRev (valRev sz cs) sz = some cs := by
  induction h with
  | nil => rfl
  | @cons d c ds cs hc h ih =>
    have hok' : ∀ d ∈ ds, d.Ok := fun d hd => hok d (by simp [hd])
    have hb := valRev_bounds hok (List.Forall₂.cons hc h)
    have hb' := valRev_bounds hok' h
    have h3 := (nb_spec (hok d (by simp))).1
    have h4 : nbProd ds ≤ nbProd (d :: ds) := by
      have := nbProd_pos hok'
      simp only [nbProd, List.map_cons, List.prod_cons] at *
      nlinarith
    rw [blockCoordsRev, numBlocks_some (hok d (by simp))]
    simp only [Option.bind_eq_bind, Option.bind_some]
    rw [cmod_some hb.1 (by omega) (by omega)]
    simp only [Option.bind_some]
    rw [cdiv_some hb.1 (by omega) (by omega)]
    simp only [Option.bind_some]
    have e1 : valRev (d :: ds) (c :: cs) % d.nb = c := by
      rw [valRev, Int.add_mul_emod_self_left, Int.emod_eq_of_lt hc.1 hc.2]
    have e2 : valRev (d :: ds) (c :: cs) / d.nb = valRev ds cs := by
      rw [valRev, Int.add_mul_ediv_left _ _ (by omega), Int.ediv_eq_zero_of_lt hc.1 hc.2]; simp
    rw [e1, e2, ih hok' (by omega)]
    rfl

theorem exists_coords (sz : List DDim) (hok : ∀ d ∈ sz, d.Ok) : ∀ w, 0 ≤ w → w < nbProd sz → ∃ cs, InRange sz cs ∧ valRev sz cs = w := by
  induction sz with
  | nil => intro w h0 h1; refine ⟨[], List.Forall₂.nil, ?_⟩; simp [nbProd] at h1; simp [valRev]; omega
  | cons d ds ih =>
    intro w h0 h1
    have h3 := (nb_spec (hok d (by simp))).1
    have hm0 := Int.emod_nonneg w (show d.nb ≠ 0 by omega)
    have hm1 := Int.emod_lt_of_pos w (show 0 < d.nb by omega)
    have hd := Int.mul_ediv_add_emod w d.nb
    obtain ⟨cs, h4, h5⟩ := ih (fun d hd => hok d (by simp [hd])) (w / d.nb) (Int.ediv_nonneg h0 (by omega)) (by
      apply Int.ediv_lt_of_lt_mul (by omega)
      simp only [nbProd, List.map_cons, List.prod_cons] at h1 ⊢
      linarith [Int.mul_comm d.nb (List.map DDim.nb ds).prod])
    exact ⟨w % d.nb :: cs, List.Forall₂.cons ⟨hm0, hm1⟩ h4, by rw [valRev, h5]; omega⟩

theorem nbProd_reverse (sz : List DDim) : nbProd sz.reverse = nbProd sz := by
  simp [nbProd, List.prod_reverse]

theorem inRange_reverse {sz : List DDim} {cs : List Int} (h : InRange sz cs) : InRange sz.reverse cs.reverse :=
  List.forall₂_reverse_iff.2 h

/-- every process number below the total decodes to in-range coordinates -/
theorem blockCoords_some {sz : List DDim} (hok : ∀ d ∈ sz, d.Ok) (hp : nbProd sz ≤ INT_MAX) {w : Int} (h0 : 0 ≤ w) (h1 : w < nbProd sz) :
    ∃ cs, blockCoords sz w = some cs ∧ InRange sz cs ∧ valRev sz.reverse cs.reverse = w := by
  obtain ⟨cs, h2, h3⟩ := exists_coords sz.reverse (by simpa using hok) w h0 (by rw [nbProd_reverse]; exact h1)
  refine ⟨cs.reverse, ?_, by simpa using inRange_reverse h2, by simpa using h3⟩
  unfold blockCoords
  rw [numBlocksTotal_some hok hp]
  simp only [Option.bind_eq_bind, Option.bind_some]
  rw [if_neg (by omega), ← h3, blockCoordsRev_val (by simpa using hok) (by rw [nbProd_reverse]; exact hp) h2]
  rfl

theorem blockCoords_val {sz : List DDim} (hok : ∀ d ∈ sz, d.Ok) (hp : nbProd sz ≤ INT_MAX) {cs : List Int} (h : InRange sz cs) :
    blockCoords sz (valRev sz.reverse cs.reverse) = some cs := by
  have h2 := inRange_reverse h
  have hb := valRev_bounds (by simpa using hok) h2
  rw [nbProd_reverse] at hb
  unfold blockCoords
  rw [numBlocksTotal_some hok hp]
  simp only [Option.bind_eq_bind, Option.bind_some]
  rw [if_neg (by omega), blockCoordsRev_val (by simpa using hok) (by rw [nbProd_reverse]; exact hp) h2]
  simp

/-- the block of an index -/
theorem index_block {d : DDim} (h : d.Ok) {j : Int} (h0 : 0 ≤ j) (h1 : j < d.n) :
    0 ≤ j / d.b ∧ j / d.b < d.nb ∧ (j / d.b) * d.b ≤ j ∧ j < (j / d.b) * d.b + max 0 (min d.b (d.n - (j / d.b) * d.b)) := by
  have hs := nb_spec h
  obtain ⟨h2, h3, _⟩ := h
  have e := Int.mul_ediv_add_emod j d.b
  have m0 := Int.emod_nonneg j (show d.b ≠ 0 by omega)
  have m1 := Int.emod_lt_of_pos j (show 0 < d.b by omega)
  have ec : j / d.b * d.b = d.b * (j / d.b) := Int.mul_comm _ _
  refine ⟨Int.ediv_nonneg h0 (by omega), ?_, by omega, by omega⟩
  apply Int.ediv_lt_of_lt_mul (by omega); omega

theorem index_block_unique {d : DDim} (h : d.Ok) {j w : Int} (h2 : w * d.b ≤ j)
    (h3 : j < w * d.b + max 0 (min d.b (d.n - w * d.b))) : w = j / d.b ∧ j < d.n := by
  obtain ⟨_, hb, _⟩ := h
  constructor
  · symm
    have : j < (w + 1) * d.b := by have : (w + 1) * d.b = w * d.b + d.b := by ring
                                   omega
    apply le_antisymm
    · exact Int.lt_add_one_iff.1 (Int.ediv_lt_of_lt_mul (by omega) this)
    · exact (Int.le_ediv_iff_mul_le (by omega)).2 h2
  · omega

end FFTW.MpiBlock
