import Verif.Model.GenfftCodelets
import Verif.Model.CodeletsR

/-!
# The codelets written by genfft/gen_r2cf.ml and genfft/gen_r2cb.ml

As for the complex codelets (Model/GenfftCodelets.lean) the C functions printed by the generators, as functions on memory, with exact
arithmetic.  In one iteration everything is loaded before anything is stored: the generator
only keeps a store after a load of the same index (genfft/dag.ml:53-60), which for these codelets is not the same place, yet the solvers run
them in place.  That the printed schedules do load first is assumed.  No strides are fixed: rdft/scalar/r2cf/Makefile.am
and rdft/scalar/r2cb/Makefile.am pass no `-with-*` flags.  A store of the constant 0 has no dual in genfft/algsimp.ml:395-498 and is not
printed; these are the stores under `storeUnless`, and that their values are 0 is proved (`C47_elided_stores`), but not that the simplifier
finds it out.
-/

namespace FFTW.Genfft
open FFTW.DftS FFTW.RdftS

/-- `input`, `oloc` in gen_r2cf.ml:89-100, gen_r2cb.ml:97-108: real arrays are split in even and odd elements -/
def evenOdd (R0 R1 : Ptr) (rs : ℤ) (i : ℕ) : Ptr := if i % 2 = 0 then R0 + ((i / 2 : ℕ) : ℤ) * rs else R1 + (((i - 1) / 2 : ℕ) : ℤ) * rs

/-- `load_array_r`, genfft/genutil.ml:86 -/
noncomputable def loadR (n : ℕ) (A : ℕ → Ptr) (st : State) : Signal := array n fun i => ⟨st.mem (A i), 0⟩

/-- `load_array_hc`, genfft/genutil.ml:87-94 -/
noncomputable def loadHc (n : ℕ) (Cr Ci : Ptr) (csr csi : ℤ) (st : State) : Signal :=
  let var (i : ℕ) : ℂ := ⟨st.mem (Cr + (i : ℤ) * csr), st.mem (Ci + (i : ℤ) * csi)⟩
  array n fun i =>
    if i < n - i then var i
    else if i > n - i then Complex.I * var (n - i)
    else ⟨st.mem (Cr + (i : ℤ) * csr), 0⟩

/-- `hermitian`, genfft/complex.ml:135-140 -/
noncomputable def hermitian (n : ℕ) (a : Signal) : Signal :=
  array n fun i =>
    if i = 0 then real (a 0) else if i < n - i then a i else if i > n - i then conj (a (n - i)) else real (a i)

/-- `rdft`, genfft/trig.ml:26-27 -/
noncomputable def rdft (mp : Magic) (sign : ℤ) (n : ℕ) (input : Signal) : Signal := dft mp sign n fun i => real (input i)
/-- `hdft`, genfft/trig.ml:30-31 -/
noncomputable def hdft (mp : Magic) (sign : ℤ) (n : ℕ) (input : Signal) : Signal := dft mp sign n (hermitian n input)

/-- `rdftII`, genfft/gen_r2cf.ml:61-70 -/
noncomputable def rdftII (mp : Magic) (sign : ℤ) (n : ℕ) (input : Signal) : Signal :=
  let input' (i : ℕ) : ℂ := if i < n then input i else 0
  let f := dft mp sign (2 * n) input'
  let g (i : ℕ) : ℂ := f (2 * i + 1)
  fun i => if i < n - i then g i else if 2 * i + 1 = n then real (g i) else 0

/-- `hcdftIII`, genfft/gen_r2cb.ml:61-72 -/
noncomputable def hcdftIII (mp : Magic) (sign : ℤ) (n : ℕ) (input : Signal) : Signal :=
  let input' (i : ℕ) : ℂ :=
    if i % 2 = 0 then 0
    else
      let i' := (i - 1) / 2
      if 2 * i' < n - 1 then input i'
      else if 2 * i' = n - 1 then real (input i')
      else conj (input (n - 1 - i'))
  dft mp sign (2 * n) input'

/-- a store, storeUnless the value is known to be 0 -/
def storeUnless (zero : Bool) (p : Ptr) (v : ℝ) (st : State) : State := if zero then st else st.set p v

/-- `store_array_hc`, genfft/genutil.ml:133-142; `zr i`, `zi i`: the real or imaginary part of element `i` is identically 0 -/
def storeHc (n : ℕ) (zr zi : ℕ → Bool) (Cr Ci : Ptr) (csr csi : ℤ) (X : Signal) (st : State) : State :=
  forN n (fun i st =>
    if i < n - i then storeUnless (zi i) (Ci + (i : ℤ) * csi) (X i).im (storeUnless (zr i) (Cr + (i : ℤ) * csr) (X i).re st)
    else if i > n - i then st
    else storeUnless (zr i) (Cr + (i : ℤ) * csr) (X i).re st) st

/-- `store_array_r`, genfft/genutil.ml:124-126 -/
def storeR (n : ℕ) (B : ℕ → Ptr) (X : Signal) (st : State) : State := forN n (fun i st => st.set (B i) (X i).re) st

/-- which outputs of `rdft` and `rdftII` have a real part that is 0 whatever the input -/
def zeroRe (II : Bool) (n i : ℕ) : Bool := II && decide (2 * i = n)
/-- the same for imaginary parts -/
def zeroIm (II : Bool) (n i : ℕ) : Bool := if II then decide (2 * i + 1 = n) else decide (i = 0)

/-- one iteration of gen_r2cf.ml:72-129 -/
noncomputable def r2cfStep (mp : Magic) (II : Bool) (n : ℕ) (R0 R1 Cr Ci : Ptr) (rs csr csi : ℤ) (st : State) : State :=
  let transform := if II then rdftII mp (-1) else rdft mp (-1)
  let output := transform n (loadR n (evenOdd R0 R1 rs) st)
  storeHc n (zeroRe II n) (zeroIm II n) Cr Ci csr csi output st

/-- `generate`, genfft/gen_r2cf.ml:72-160; `-dft-II` if `II` (rdft/scalar/r2cf/Makefile.am:78-95; kinds: rdft/scalar/r2cf.h, r2cfII.h) -/
noncomputable def r2cf (mp : Magic) (II : Bool) (n : ℕ) : KR2c where
  n := n
  kind := if II then .R2HC01 else .R2HC00
  k := fun R0 R1 Cr Ci rs csr csi v ivs ovs st =>
    forN v (fun i st => r2cfStep mp II n (R0 + (i : ℤ) * ivs) (R1 + (i : ℤ) * ivs) (Cr + (i : ℤ) * ovs) (Ci + (i : ℤ) * ovs) rs csr csi st) st

/-- one iteration of gen_r2cb.ml:74-132 -/
noncomputable def r2cbStep (mp : Magic) (III : Bool) (n : ℕ) (R0 R1 Cr Ci : Ptr) (rs csr csi : ℤ) (st : State) : State :=
  let transform := if III then hcdftIII mp 1 else hdft mp 1
  let output := transform n (loadHc n Cr Ci csr csi st)
  storeR n (evenOdd R0 R1 rs) output st

/-- `generate`, genfft/gen_r2cb.ml:74-163; `-dft-III` if `III` (rdft/scalar/r2cb/Makefile.am:78-95; kinds: rdft/scalar/r2cb.h, r2cbIII.h) -/
noncomputable def r2cb (mp : Magic) (III : Bool) (n : ℕ) : KR2c where
  n := n
  kind := if III then .HC2R10 else .HC2R00
  k := fun R0 R1 Cr Ci rs csr csi v ivs ovs st =>
    forN v (fun i st => r2cbStep mp III n (R0 + (i : ℤ) * ovs) (R1 + (i : ℤ) * ovs) (Cr + (i : ℤ) * ivs) (Ci + (i : ℤ) * ivs) rs csr csi st) st

end FFTW.Genfft
