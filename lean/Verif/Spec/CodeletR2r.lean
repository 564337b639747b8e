import Verif.Model.GenfftR2r
import Verif.Spec.CodeletR

/-!
# What rdft/direct-r2r.c requires of a codelet
-/

namespace FFTW.RdftS

/-- contract of a real-to-real codelet -/
structure KR2r.Sound (c : KR2r) : Prop where
  /-- `vl` transforms are done one after the other -/
  loop : ∀ (I O : Ptr) (is os : ℤ) (vl : ℕ) (ivs ovs : ℤ) (st : State), c.k I O is os vl ivs ovs st =
    forN vl (fun i st => c.k (I + (i : ℤ) * ivs) (O + (i : ℤ) * ovs) is os 1 0 0 st) st
  /-- one transform, whatever the overlap of input and output -/
  one : ∀ (I O : Ptr) (is os : ℤ) (st : State),
    (∀ k < c.n, ∀ k' < c.n, O + (k : ℤ) * os = O + (k' : ℤ) * os → k = k') →
    Computes c.kind c.n (fun j => I + (j : ℤ) * is) (fun k => O + (k : ℤ) * os) st (c.k I O is os 1 0 0 st)

end FFTW.RdftS
