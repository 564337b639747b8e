import Verif.Model.GenfftCodelets
import Verif.Model.Hc2hc

/-!
# The codelets written by genfft/gen_hc2hc.ml

`hf_*` and `hf2_*` are generated with `-dit` and sign -1, `hb_*` and `hb2_*` with `-dif` and `-sign 1` (rdft/scalar/r2cf/Makefile.am,
rdft/scalar/r2cb/Makefile.am); their genus is R2HC and HC2R respectively (rdft/scalar/hfb.c).  As in the other codelets all elements are loaded
before any is stored.
-/

namespace FFTW.Genfft
open FFTW.DftS FFTW.RdftS

/-- `byi`, genfft/gen_hc2hc.ml:67 -/
noncomputable def byi (z : ℂ) : ℂ := Complex.I * z
/-- `byui`, genfft/gen_hc2hc.ml:68 -/
noncomputable def byui (z : ℂ) : ℂ := (- Complex.I) * z
/-- `sym1`, genfft/gen_hc2hc.ml:70-71 -/
noncomputable def sym1 (n : ℕ) (f : Signal) (i : ℕ) : ℂ := real (f i) + byi (imag (f (n - 1 - i)))
/-- `sym2`, genfft/gen_hc2hc.ml:73 -/
noncomputable def sym2 (n : ℕ) (f : Signal) (i : ℕ) : ℂ := if i < n - i then f i else byi (f i)
/-- `sym2i`, genfft/gen_hc2hc.ml:74 -/
noncomputable def sym2i (n : ℕ) (f : Signal) (i : ℕ) : ℂ := if i < n - i then f i else byui (f i)

/-- the `transform` of `generate`, genfft/gen_hc2hc.ml:92-106, with the sign of the Makefile -/
noncomputable def hc2hcAlg (mp : Magic) (P : Policy) (dit : Bool) (n : ℕ) (w : ℕ → ℂ) (x : Signal) : Signal :=
  if dit then sym1 n (sym2 n (dft mp (-1) n (P.bytwiddle n (-1) w x)))
  else P.bytwiddle n 1 w (dft mp 1 n (sym2i n (sym1 n x)))

/-- `generate`, genfft/gen_hc2hc.ml:76-169: `twiddle_policy 1` makes column 1 the first of the table, `W` is advanced to `mb - 1` -/
noncomputable def hc2hcCodelet (mp : Magic) (P : Policy) (dit : Bool) (n : ℕ) : KHc2hc where
  radix := n
  fwd := dit
  tw := ⟨(P.twdesc n).map fun p => { p with v := 1 }, 1⟩
  k := fun cr ci W rs mb me ms st =>
    forN (me - mb) (fun i st =>
      let cr := cr + (i : ℤ) * ms
      let ci := ci + (- (i : ℤ) * ms)
      codeletStep n (hc2hcAlg mp P dit n (twiddleArray (P.twidlen n) W (mb - 1 + i))) cr ci cr ci rs rs st) st

end FFTW.Genfft
