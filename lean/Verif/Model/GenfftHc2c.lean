import Verif.Model.GenfftCodelets
import Verif.Model.Hc2c

/-!
# The codelets written by genfft/gen_hc2c.ml and genfft/gen_hc2cdft.ml

`hc2cf_*`, `hc2cf2_*`, `hc2cfdft_*`, `hc2cfdft2_*` are generated with `-dit` and sign -1 (rdft/scalar/r2cf/Makefile.am), `hc2cb_*`, `hc2cb2_*`,
`hc2cbdft_*`, `hc2cbdft2_*` with `-dif` and `-sign 1` (rdft/scalar/r2cb/Makefile.am); their genus is R2HC and HC2R respectively
(rdft/scalar/hc2c.c).  As in the other codelets all elements are loaded before any is stored.  The first are registered with `HC2C_VIA_RDFT`
(gen_hc2c.ml:174), the `dft` ones with `HC2C_VIA_DFT` (gen_hc2cdft.ml:196).
-/

namespace FFTW.Genfft
open FFTW.DftS FFTW.Rdft2S

/-- `sym`, genfft/gen_hc2c.ml:50 and gen_hc2cdft.ml:105 -/
noncomputable def symC (n : ℕ) (f : Signal) (i : ℕ) : ℂ := if i < n - i then f i else conj (f i)
/-- `sym1`, genfft/gen_hc2cdft.ml:106-111 -/
noncomputable def sym1C (f : Signal) (i : ℕ) : ℂ := if i % 2 = 0 then f i + conj (f (i + 1)) else (- Complex.I) * (f (i - 1) + - conj (f i))
/-- `sym1i`, genfft/gen_hc2cdft.ml:112-118 -/
noncomputable def sym1iC (f : Signal) (i : ℕ) : ℂ := if i % 2 = 0 then f i + Complex.I * f (i + 1) else conj (f (i - 1) + (- Complex.I) * f i)

/-- `locri`, genfft/gen_hc2c.ml:100: where the real and the imaginary part of element `i` are -/
def locri (Rp Ip Rm Im : Ptr) (rs : ℤ) (i : ℕ) : Ptr × Ptr :=
  if i % 2 = 0 then (Rp + ((i / 2 : ℕ) : ℤ) * rs, Rm + ((i / 2 : ℕ) : ℤ) * rs) else (Ip + (((i - 1) / 2 : ℕ) : ℤ) * rs, Im + (((i - 1) / 2 : ℕ) : ℤ) * rs)
/-- `locpm`, genfft/gen_hc2c.ml:101, and `cloc`, gen_hc2cdft.ml:104 -/
def locpm (n : ℕ) (Rp Ip Rm Im : Ptr) (rs : ℤ) (i : ℕ) : Ptr × Ptr :=
  if i < n - i then (Rp + (i : ℤ) * rs, Ip + (i : ℤ) * rs) else (Rm + ((n - 1 - i : ℕ) : ℤ) * rs, Im + ((n - 1 - i : ℕ) : ℤ) * rs)
/-- `rloc`, genfft/gen_hc2cdft.ml:103 -/
def rloc (Rp Ip Rm Im : Ptr) (rs : ℤ) (i : ℕ) : Ptr × Ptr :=
  if i % 2 = 0 then (Rp + ((i / 2 : ℕ) : ℤ) * rs, Ip + ((i / 2 : ℕ) : ℤ) * rs) else (Rm + (((i - 1) / 2 : ℕ) : ℤ) * rs, Im + (((i - 1) / 2 : ℕ) : ℤ) * rs)

/-- one iteration, `load_array_c n ld` and `store_array_c n sto`, genfft/genutil.ml:85 and 128-131 -/
noncomputable def stepLoc (n : ℕ) (alg : Signal → Signal) (ld sto : ℕ → Ptr × Ptr) (st : State) : State :=
  let X := alg (array n fun j => ⟨st.mem (ld j).1, st.mem (ld j).2⟩)
  forN n (fun k st => (st.set (sto k).1 (X k).re).set (sto k).2 (X k).im) st

/-- `asch`, genfft/gen_hc2c.ml:104-115 (`viaRdft`) and gen_hc2cdft.ml:121-136 (`viaDft`), with the sign of the Makefile -/
noncomputable def hc2cStepC (mp : Magic) (P : Policy) (via : Hc2cKind) (dit : Bool) (n : ℕ) (w : ℕ → ℂ) (Rp Ip Rm Im : Ptr) (rs : ℤ) : State → State :=
  match via with
  | .viaRdft =>
    if dit then stepLoc n (fun x => symC n (dft mp (-1) n (P.bytwiddle n (-1) w x))) (locri Rp Ip Rm Im rs) (locpm n Rp Ip Rm Im rs)
    else stepLoc n (fun x => P.bytwiddle n 1 w (dft mp 1 n (symC n x))) (locpm n Rp Ip Rm Im rs) (locri Rp Ip Rm Im rs)
  | .viaDft =>
    if dit then
      stepLoc n (fun x => symC n fun i => (1 / 2 : ℂ) * dft mp (-1) n (P.bytwiddle n (-1) w (sym1C x)) i) (rloc Rp Ip Rm Im rs) (locpm n Rp Ip Rm Im rs)
    else stepLoc n (fun x => sym1iC (P.bytwiddle n 1 w (dft mp 1 n (symC n x)))) (locpm n Rp Ip Rm Im rs) (rloc Rp Ip Rm Im rs)

/-- `generate`, genfft/gen_hc2c.ml:54-177 and gen_hc2cdft.ml:57-199: `twiddle_policy 1` makes column 1 the first of the table, `W` is advanced to
`mb - 1`; `Rp` and `Ip` move forwards, `Rm` and `Im` backwards -/
noncomputable def hc2cCodelet (mp : Magic) (P : Policy) (via : Hc2cKind) (dit : Bool) (n : ℕ) : KHc2c where
  radix := n
  fwd := dit
  tw := ⟨(P.twdesc n).map fun p => { p with v := 1 }, 1⟩
  k := fun Rp Ip Rm Im W rs mb me ms st =>
    forN (me - mb) (fun i st =>
      hc2cStepC mp P via dit n (twiddleArray (P.twidlen n) W (mb - 1 + i))
        (Rp + (i : ℤ) * ms) (Ip + (i : ℤ) * ms) (Rm + (- (i : ℤ) * ms)) (Im + (- (i : ℤ) * ms)) rs st) st

end FFTW.Genfft
