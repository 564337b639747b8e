import Verif.Model.GenfftReal

/-!
# rdft/direct-r2r.c and the codelets written by genfft/gen_r2r.ml

Only two such codelets are in the distribution (e01_8, e10_8, rdft/scalar/r2r/Makefile.am:24-40), but the generator is modelled for all kinds
and sizes.  As in Model/GenfftReal.lean, in one iteration everything is loaded before anything is stored, and arithmetic is exact.  The
options `-unitary`, `-normalization` and `-normsqr` are off in rdft/scalar/r2r/Makefile.am:58-95, so that `rescale` and the scale factor in
gen_r2r.ml:135-139,181-183 do nothing.
-/

namespace FFTW.RdftS
open Tensor DftS

variable [CLib]

/-- a real-to-real codelet: `kr2r_desc` with its genus, and `kr2r` (rdft/codelet-rdft.h:159-174).  `k I O is os vl ivs ovs` -/
structure KR2r where
  n : ℕ
  kind : RKind
  k : Ptr → Ptr → ℤ → ℤ → ℕ → ℤ → ℤ → State → State

/-- `applicable`, rdft/direct-r2r.c:68-95 -/
def directR2rApplicable (c : KR2r) (p : RdftP) (d : Dim) (kind : RKind) (v : List Dim) (vd : Dim) : Bool :=
  decide (d.n = c.n) && decide (kind = c.kind) && (decide (p.I ≠ p.O) || decide (vd.n = 1) || inplaceStrides2 [d] v)

/-- rdft/direct-r2r.c, `apply` 41-46, `mkplan` 97-133 -/
def directR2r (c : KR2r) : Solver := rdftSolver fun p _ =>
  match p.sz, p.vecsz with
  | [(d, kind)], some v =>
    match tornk1 v with
    | some vd =>
      if directR2rApplicable c p d kind v vd then .ret (some (.rdft fun I O => c.k I O d.is d.os vd.n vd.is vd.os))
      else .nada
    | none => .nada
  | _, _ => .nada

end FFTW.RdftS

namespace FFTW.Genfft
open FFTW.DftS FFTW.RdftS

/-- `iimag`, genfft/complex.ml:105 -/
def iimag (x : ℂ) : ℂ := ⟨0, x.im⟩

/-- `antihermitian`, genfft/complex.ml:142-147 -/
noncomputable def antihermitian (n : ℕ) (a : Signal) : Signal :=
  array n fun i =>
    if i = 0 then iimag (a 0) else if i < n - i then a i else if i > n - i then - conj (a (n - i)) else iimag (a i)

/-- `dht`, genfft/trig.ml:43-46 -/
noncomputable def dht (mp : Magic) (sign : ℤ) (n : ℕ) (input : Signal) : Signal :=
  let f := dft mp sign n fun i => real (input i)
  fun i => real (f i) + imag (f i)

/-- `trigI`, genfft/trig.ml:48-52 -/
noncomputable def trigI (mp : Magic) (n : ℕ) (input : Signal) : Signal := dft mp 1 (2 * n) (hermitian (2 * n) input)

/-- `interleave_zero`, genfft/trig.ml:54-58 -/
noncomputable def interleaveZero (input : Signal) : Signal := fun i => if i % 2 = 0 then 0 else input ((i - 1) / 2)

/-- `trigII`, genfft/trig.ml:60-64 -/
noncomputable def trigII (mp : Magic) (n : ℕ) (input : Signal) : Signal := dft mp 1 (4 * n) (hermitian (4 * n) (interleaveZero input))

/-- `trigIII`, genfft/trig.ml:66-79 -/
noncomputable def trigIII (mp : Magic) (n : ℕ) (input : Signal) : Signal :=
  let input' := hermitian (4 * n) fun i =>
    if i = 0 then real (input 0) else if i = 2 * n then - real (input 0) else antihermitian (2 * n) input i
  fun k => dft mp 1 (4 * n) input' (2 * k + 1)

/-- `zero_extend`, genfft/trig.ml:81-84; an OCaml signal is a function on integers -/
def zeroExtend (n : ℕ) (input : Signal) (i : ℤ) : ℂ := if 0 ≤ i ∧ i < n then input i.toNat else 0

/-- `shift`, genfft/trig.ml:120 -/
def shift (s : ℤ) (input : ℤ → ℂ) (i : ℤ) : ℂ := input (i - s)

/-- `trigIV`, genfft/trig.ml:86-94 -/
noncomputable def trigIV (mp : Magic) (n : ℕ) (input : Signal) : Signal :=
  let input' := hermitian (8 * n) fun i => zeroExtend (4 * n) (antihermitian (4 * n) (interleaveZero input)) i
  fun k => dft mp 1 (8 * n) input' (2 * k + 1)

/-- `make_dct`, genfft/trig.ml:96-99 -/
noncomputable def makeDct (scale : ℂ) (nshift : ℕ) (trig : ℕ → Signal → Signal) (n : ℕ) (input : Signal) : Signal :=
  trig (n - nshift) fun i => real (scale * zeroExtend n input i)

/-- `make_dst`, genfft/trig.ml:123-131 -/
noncomputable def makeDst (scale : ℂ) (nshift : ℕ) (kshift : ℤ) (jshift : ℕ) (trig : ℕ → Signal → Signal) (n : ℕ) (input : Signal) : Signal :=
  let f := trig (n + nshift) fun i => - (Complex.I * (scale * real (shift kshift (zeroExtend n input) i)))
  fun k => real (f (k + jshift))

/-- `dctI`, genfft/trig.ml:103 -/
noncomputable def dctI (mp : Magic) := makeDct 1 1 (trigI mp)
/-- `dctII`, genfft/trig.ml:108 -/
noncomputable def dctII (mp : Magic) := makeDct 1 0 (trigII mp)
/-- `dctIII`, genfft/trig.ml:113 -/
noncomputable def dctIII (mp : Magic) := makeDct (1 / 2) 0 (trigIII mp)
/-- `dctIV`, genfft/trig.ml:118 -/
noncomputable def dctIV (mp : Magic) := makeDct (1 / 2) 0 (trigIV mp)
/-- `dstI`, genfft/trig.ml:136 -/
noncomputable def dstI (mp : Magic) := makeDst 1 1 1 1 (trigI mp)
/-- `dstII`, genfft/trig.ml:141 -/
noncomputable def dstII (mp : Magic) := makeDst 1 0 0 1 (trigII mp)
/-- `dstIII`, genfft/trig.ml:146 -/
noncomputable def dstIII (mp : Magic) := makeDst (1 / 2) 0 1 0 (trigIII mp)
/-- `dstIV`, genfft/trig.ml:151 -/
noncomputable def dstIV (mp : Magic) := makeDst (1 / 2) 0 0 0 (trigIV mp)

/-- the modes of gen_r2r.ml that the Makefile uses -/
inductive R2rMode | DHT | REDFT00 | REDFT10 | REDFT01 | REDFT11 | RODFT00 | RODFT10 | RODFT01 | RODFT11
deriving DecidableEq

/-- the kind printed in the descriptor, genfft/gen_r2r.ml:222-235 -/
def R2rMode.kind : R2rMode → RKind
  | .DHT => .DHT
  | .REDFT00 => .REDFT00 | .REDFT10 => .REDFT10 | .REDFT01 => .REDFT01 | .REDFT11 => .REDFT11
  | .RODFT00 => .RODFT00 | .RODFT10 => .RODFT10 | .RODFT01 => .RODFT01 | .RODFT11 => .RODFT11

/-- `transform`, genfft/gen_r2r.ml:159-172 -/
noncomputable def R2rMode.transform (mp : Magic) : R2rMode → ℕ → Signal → Signal
  | .DHT => dht mp 1
  | .REDFT00 => dctI mp
  | .REDFT10 => dctII mp
  | .REDFT01 => dctIII mp
  | .REDFT11 => dctIV mp
  | .RODFT00 => dstI mp
  | .RODFT10 => dstII mp
  | .RODFT01 => dstIII mp
  | .RODFT11 => dstIV mp

/-- one iteration of gen_r2r.ml:175-190.  The input is loaded as complex numbers (`load_array_c`) whose imaginary parts are the elements of an array
called `BUG`, which does not exist: `bug` stands for its contents.  That the transforms never use them is part of what is proved. -/
noncomputable def r2rStep (mp : Magic) (bug : ℕ → ℝ) (mode : R2rMode) (n : ℕ) (I O : Ptr) (is os : ℤ) (st : State) : State :=
  let input := array n fun j => (⟨st.mem (I + (j : ℤ) * is), bug j⟩ : ℂ)
  let output := mode.transform mp n input
  storeR n (fun k => O + (k : ℤ) * os) output st

/-- `generate`, genfft/gen_r2r.ml:141-247 -/
noncomputable def r2r (mp : Magic) (bug : ℕ → ℝ) (mode : R2rMode) (n : ℕ) : KR2r where
  n := n
  kind := mode.kind
  k := fun I O is os v ivs ovs st =>
    forN v (fun i st => r2rStep mp bug mode n (I + (i : ℤ) * ivs) (O + (i : ℤ) * ovs) is os st) st

end FFTW.Genfft
