import Verif.Model.Genfft
import Verif.Model.Codelets

/-!
# The codelets written by genfft/gen_notw.ml, gen_twiddle.ml and gen_twidsq.ml, with the policies of genfft/twiddle.ml

The C functions the generators print, as functions on memory.  In one iteration all elements are loaded before any is stored; the
scheduler only keeps the store of an element after the load of the element with the same index (genfft/dag.ml:53-60), which is the same
thing if no store hits the place of another element.  Scalar code (`-simd` is not modelled), arithmetic exact, sign -1
(genfft/genutil.ml: `sign`).
-/

namespace FFTW.Genfft
open FFTW.DftS

/-- a stride fixed at generation time, if not 0: `either_stride`, `stride_to_solverparm`, genfft/genutil.ml and `okp` (dft/scalar/n.c:25-39) -/
def fixed (d x : ℤ) : ℤ := if d = 0 then x else d
def okStride (d x : ℤ) : Bool := d = 0 || d = x

/-- one iteration: `x` are the values loaded, `X` those stored; `load_array_c`, `store_array_c`, genfft/genutil.ml:85 and 128-131 -/
noncomputable def codeletStep (n : ℕ) (alg : Signal → Signal) (ri ii ro io : Ptr) (is os : ℤ) (st : State) : State :=
  let X := alg (array n fun j => ⟨st.mem (ri + (j : ℤ) * is), st.mem (ii + (j : ℤ) * is)⟩)
  forN n (fun k st => (st.set (ro + (k : ℤ) * os) (X k).re).set (io + (k : ℤ) * os) (X k).im) st

/-- `generate`, genfft/gen_notw.ml:58-173; `okp`, dft/scalar/n.c:25-39 -/
noncomputable def notw (mp : Magic) (n : ℕ) (dis dos divs dovs : ℤ) : KDft where
  sz := n
  okp := fun _ _ _ _ is os _ ivs ovs _ => okStride dis is && okStride dos os && okStride divs ivs && okStride dovs ovs
  k := fun ri ii ro io is os v ivs ovs st =>
    forN v (fun i st => codeletStep n (dft mp (-1) n)
      (ri + (i : ℤ) * fixed divs ivs) (ii + (i : ℤ) * fixed divs ivs) (ro + (i : ℤ) * fixed dovs ovs) (io + (i : ℤ) * fixed dovs ovs)
      (fixed dis is) (fixed dos os) st) st

/-! ### genfft/twiddle.ml -/

/-- `is_pow`, twiddle.ml:64-65; loops for `n = 0` in OCaml -/
def isPow (m n : ℕ) : Bool :=
  if n = 1 then true else if h : n = 0 ∨ m ≤ 1 then false else n % m = 0 && isPow m (n / m)
termination_by n
decreasing_by exact Nat.div_lt_self (by omega) (by omega)

/-- `log`, twiddle.ml:67; loops for `n = 0` in OCaml -/
def log (m n : ℕ) : ℕ :=
  if n = 1 then 0 else if h : n = 0 ∨ m ≤ 1 then 0 else 1 + log m (n / m)
termination_by n
decreasing_by exact Nat.div_lt_self (by omega) (by omega)

/-- `largest_power_smaller_than`, twiddle.ml:69-71 -/
def largestPower (m : ℕ) : ℕ → ℕ
  | 0 => 0
  | i + 1 => if isPow m (i + 1) then i + 1 else largestPower m i

/-- `smallest_power_larger_than`, twiddle.ml:73-75 -/
def smallestPower (m i : ℕ) : Option ℕ := if isPow m i then some i else smallestPower m (i + 1)
partial_fixpoint

/-- `make_bytwiddle`, twiddle.ml:99-105, without complex arithmetic; `none` (an exception or a loop) gives 0 -/
noncomputable def makeBytwiddle (sign : ℤ) (g : ℕ → Option ℂ) (f : Signal) (i : ℕ) : ℂ :=
  if i = 0 then f i
  else match g i with
    | none => 0
    | some z => if sign = 1 then z * f i else conj z * f i

/-- what a policy returns: `bytwiddle`, `twidlen`, `twdesc` (without the final `TW_NEXT, 1, 0`) -/
structure Policy where
  bytwiddle : ℕ → ℤ → (ℕ → ℂ) → Signal → Signal
  twidlen : ℕ → ℕ
  twdesc : ℕ → List Twiddle.Instr

/-- `twiddle_policy_load_all 0`, twiddle.ml:109-114 -/
noncomputable def loadAll : Policy where
  bytwiddle := fun _ sign w f => makeBytwiddle sign (fun i => some (w (i - 1))) f
  twidlen := fun n => 2 * (n - 1)
  twdesc := fun r => [⟨.full, 0, r⟩]

/-- the array `g` of `twiddle_policy_log2`, twiddle.ml:124-129 -/
noncomputable def log2G (n : ℕ) (w : ℕ → ℂ) (i : ℕ) : Option ℂ :=
  let self (i : ℕ) : Option ℂ := if i < n then log2G n w i else none
  if i = 0 then some 1
  else if isPow 2 i then some (w (log 2 i))
  else
    let x := largestPower 2 i
    let y := i - x
    do
      let a ← self x
      let b ← self y
      some (a * b)
partial_fixpoint

/-- `twiddle_policy_log2 0`, twiddle.ml:122-142 -/
noncomputable def log2Policy : Policy where
  bytwiddle := fun n sign w f => makeBytwiddle sign (log2G n w) f
  twidlen := fun n => 2 * log 2 (largestPower 2 (2 * n - 1))
  twdesc := fun n => (List.range n).flatMap fun i => if i > 0 && isPow 2 i then [⟨.cexp, 0, i⟩] else []

/-- `terms_needed`, twiddle.ml:145-147; loops for `pi = 0` -/
def termsNeeded (i pi s n : ℕ) : ℕ :=
  if h : s + 1 ≥ n ∨ pi = 0 then i else termsNeeded (i + 1) (3 * pi) (s + pi) n
termination_by n - s

/-- the array `g` of `twiddle_policy_log3`, twiddle.ml:149-162 -/
noncomputable def log3G (n : ℕ) (w : ℕ → ℂ) (i : ℕ) : Option ℂ :=
  let nterms := termsNeeded 0 1 0 n
  let maxterm := 3 ^ (nterms - 1)
  let self (i : ℕ) : Option ℂ := if i < 3 * n then log3G n w i else none
  if i = 0 then some 1
  else if isPow 3 i then some (w (log 3 i))
  else if i = n - 1 ∧ maxterm ≥ n then some (w (nterms - 1))
  else do
    let x ← smallestPower 3 i
    if i + i ≥ x then
      let x := min x (n - 1)
      let a ← self (x - i)
      let b ← self x
      some (conj a * b)
    else
      let x := largestPower 3 i
      let a ← self (i - x)
      let b ← self x
      some (a * b)
partial_fixpoint

/-- `twiddle_policy_log3 0`, twiddle.ml:144-172 -/
noncomputable def log3Policy : Policy where
  bytwiddle := fun n sign w f => makeBytwiddle sign (log3G n w) f
  twidlen := fun n => 2 * termsNeeded 0 1 0 n
  twdesc := fun n => (List.range (2 * termsNeeded 0 1 0 n / 2)).map fun i => ⟨.cexp, 0, (min (3 ^ i) (n - 1) : ℕ)⟩

/-- `twiddle_array`, genfft/genutil.ml:72-82, with `W` advanced to column `l` -/
noncomputable def twiddleArray (nt : ℕ) (W : ℕ → ℝ) (l : ℕ) : ℕ → ℂ := array (nt / 2) fun i => ⟨W (nt * l + 2 * i), W (nt * l + (2 * i + 1))⟩

/-- `output`, genfft/gen_twiddle.ml:85-89 and gen_twidsq.ml:102-106 -/
noncomputable def twAlg (mp : Magic) (P : Policy) (dit : Bool) (n : ℕ) (w : ℕ → ℂ) (x : Signal) : Signal :=
  if dit then dft mp (-1) n (P.bytwiddle n (-1) w x) else P.bytwiddle n (-1) w (dft mp (-1) n x)

/-- `generate`, genfft/gen_twiddle.ml:52-152; `okp`, dft/scalar/t.c:24-35 (`d->vs` is 0) -/
noncomputable def twiddleCodelet (mp : Magic) (P : Policy) (dit : Bool) (n : ℕ) (drs dms : ℤ) : KDftw where
  radix := n
  tw := ⟨P.twdesc n, 1⟩
  okp := fun _ _ rs _ _ _ _ ms _ => okStride drs rs && okStride dms ms
  k := fun rio iio W rs mb me ms st =>
    forN (me - mb) (fun i st =>
      let rio := rio + (i : ℤ) * fixed dms ms
      let iio := iio + (i : ℤ) * fixed dms ms
      codeletStep n (twAlg mp P dit n (twiddleArray (P.twidlen n) W (mb + i))) rio iio rio iio (fixed drs rs) (fixed drs rs) st) st

/-- one iteration of a square codelet: `lioi`, `output` and `transpose output` of genfft/gen_twidsq.ml:101-108 -/
noncomputable def twidsqStep (n : ℕ) (alg : Signal → Signal) (rio iio : Ptr) (rs vs : ℤ) (st : State) : State :=
  let X : ℕ → Signal := fun v => alg (array n fun j => ⟨st.mem (rio + ((v : ℤ) * vs + (j : ℤ) * rs)), st.mem (iio + ((v : ℤ) * vs + (j : ℤ) * rs))⟩)
  forN n (fun v st => forN n (fun i st =>
    (st.set (rio + ((v : ℤ) * vs + (i : ℤ) * rs)) (X i v).re).set (iio + ((v : ℤ) * vs + (i : ℤ) * rs)) (X i v).im) st) st

/-- `generate`, genfft/gen_twidsq.ml:63-167, decimation in frequency; `-reload-twiddle` loads the same numbers more often -/
noncomputable def twidsqCodelet (mp : Magic) (P : Policy) (n : ℕ) (drs dvs dms : ℤ) : KDftwsq where
  radix := n
  tw := ⟨P.twdesc n, 1⟩
  okp := fun _ _ rs vs _ _ _ ms _ => okStride drs rs && okStride dvs vs && okStride dms ms
  k := fun rio iio W rs vs mb me ms st =>
    forN (me - mb) (fun i st =>
      twidsqStep n (twAlg mp P false n (twiddleArray (P.twidlen n) W (mb + i))) (rio + (i : ℤ) * ms) (iio + (i : ℤ) * ms) (fixed drs rs) (fixed dvs vs) st) st

end FFTW.Genfft
