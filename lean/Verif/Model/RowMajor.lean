import Verif.Model.CInt
/-!
# `api/mktensor-rowmajor.c`, `api/rdft2-pad.c`, the layout part of `api/plan-many-dft*.c`
-/

namespace FFTW.RowMajor

/-- `iodim`, kernel/ifftw.h:417-421 -/
structure IoDim where
  n : Int
  is : Int
  os : Int
  deriving DecidableEq, Repr

/-- `mktensor_rowmajor`, api/mktensor-rowmajor.c:23-43.  Arguments: `(n[i], niphys[i], nophys[i])` for each dimension.
The C loop fills the dimensions from the last to the first; `dims[i-1].is = dims[i].is * niphys[i]`.
`INT` arithmetic is checked. -/
def mktensorRowmajor : List (Int × Int × Int) → Int → Int → C (List IoDim)
  | [], _, _ => some []
  | [(n, _, _)], is, os => some [{ n := n, is := is, os := os }]
  | (n, _, _) :: (n', ni', no') :: rest, is, os => do
    let ds ← mktensorRowmajor ((n', ni', no') :: rest) is os
    match ds with
    | [] => none
    | d :: _ => do
      let is' ← cmul d.is ni'
      let os' ← cmul d.os no'
      return { n := n, is := is', os := os' } :: ds

/-- `rowmajor_kosherp`, api/mktensor-rowmajor.c:45-56 (finite rank) -/
def rowmajorKosherp (n : List Int) : Bool := n.all fun x => !(decide (x ≤ 0))

/-- `many_kosherp`, api/mktensor-rowmajor.c:58-61 -/
def manyKosherp (n : List Int) (howmany : Int) : Bool := decide (howmany ≥ 0) && rowmajorKosherp n

/-- `rdft2_pad`, api/rdft2-pad.c:24-39: the embedding used when the caller passes `nembed` (`none` = NULL) -/
def rdft2Pad (n : List Int) (nembed : Option (List Int)) (inplace cmplx : Bool) : Option (List Int) :=
  match nembed with
  | some e => some e
  | none =>
    match n.getLast? with
    | none => none                                                  -- rnk = 0: NULL stays NULL
    | some last =>
      if inplace ∨ cmplx then
        some (n.dropLast ++ [(last.tdiv 2 + 1) * (1 + if cmplx then 0 else 1)])
      else some n

end FFTW.RowMajor
