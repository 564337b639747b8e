import Verif.Model.RdftSolvers
import Verif.Model.DftGeneric

/-!
# rdft/generic.c, rdft/dht-r2hc.c, rdft/rdft-dht.c

The `E *buf` of rdft/generic.c, which no other plan sees, is a local variable of type `ℕ → ℝ`.  Loops `for (i = 1; i + i < n; ++i)` and
`for (i = 1; i < n - i; ++i)` make `(n-1)/2` rounds and leave `i = (n-1)/2 + 1`.  `FFT_SIGN` is `-1` (kernel/ifftw.h:92).  The tests `NO_SLOWP`,
`NO_LARGE_GENERICP` and `NO_DHT_R2HCP` are part of `taste`.
-/

namespace FFTW.RdftS
open Tensor DftS

/-- state of `hartley_r2hc`, `hartley_hc2r`: the array `o` and `sr` -/
structure HartR where
  o : ℕ → ℝ
  sr : ℝ

/-- `hartley_r2hc`, rdft/generic.c:52-70; `o` has been advanced by `1 + 2*(i-1)` in the round of `i = i0+1` -/
def hartleyR2hc (mem : Ptr → ℝ) (n : ℕ) (xr : Ptr) (xs : ℤ) : HartR :=
  iter ((n - 1) / 2) (fun i0 s =>
      let i := i0 + 1
      let a := mem (xr + (i : ℤ) * xs)
      let b := mem (xr + ((n - i : ℕ) : ℤ) * xs)
      { o := Function.update (Function.update s.o (1 + 2 * i0) (a + b)) (1 + 2 * i0 + 1) (b - a), sr := s.sr + (a + b) })
    { o := Function.update (fun _ => 0) 0 (mem xr), sr := mem xr }

/-- `hartley_hc2r`, rdft/generic.c:113-125 -/
def hartleyHc2r (mem : Ptr → ℝ) (n : ℕ) (x : Ptr) (xs : ℤ) : HartR :=
  iter ((n - 1) / 2) (fun i0 s =>
      let i := i0 + 1
      let a := mem (x + (i : ℤ) * xs)
      let b := mem (x + ((n - i : ℕ) : ℤ) * xs)
      { o := Function.update (Function.update s.o (1 + 2 * i0) (a + a)) (1 + 2 * i0 + 1) (b + b), sr := s.sr + (a + a) })
    { o := Function.update (fun _ => 0) 0 (mem x), sr := mem x }

/-- the two sums of `cdot_r2hc` (rdft/generic.c:37-50) and `cdot_hc2r` (93-111); `w` is the table from the current position of `W` -/
def cdotR (n : ℕ) (x w : ℕ → ℝ) : ℝ × ℝ :=
  iter ((n - 1) / 2) (fun i0 s => (s.1 + x (1 + 2 * i0) * w (2 * i0), s.2 + x (1 + 2 * i0 + 1) * w (2 * i0 + 1))) (x 0, 0)

/-- `apply_r2hc`, rdft/generic.c:72-90 -/
def genericR2hc (W : ℕ → ℝ) (n : ℕ) (is os : ℤ) (I O : Ptr) (st : State) : State :=
  let h := hartleyR2hc st.mem n I is
  let st := st.set O h.sr
  forN ((n - 1) / 2) (fun i0 st =>
    let i := i0 + 1
    let c := cdotR n h.o fun t => W (i0 * (n - 1) + t)
    (st.set (O + (i : ℤ) * os) c.1).set (O + ((n - i : ℕ) : ℤ) * os) c.2) st

/-- `apply_hc2r`, rdft/generic.c:127-145 -/
def genericHc2r (W : ℕ → ℝ) (n : ℕ) (is os : ℤ) (I O : Ptr) (st : State) : State :=
  let h := hartleyHc2r st.mem n I is
  let st := st.set O h.sr
  forN ((n - 1) / 2) (fun i0 st =>
    let i := i0 + 1
    let c := cdotR n h.o fun t => W (i0 * (n - 1) + t)
    (st.set (O + (i : ℤ) * os) (c.1 - c.2)).set (O + ((n - i : ℕ) : ℤ) * os) (c.1 + c.2)) st

/-- `applicable` 171-184, `mkplan` 186-218, rdft/generic.c; registered with `kind` `R2HC` and `HC2R`.  The table of `awake` (150-160) is that of
dft/generic.c. -/
noncomputable def genericR (cexp : ℕ → ℤ → ℝ × ℝ) (kind : RKind) (taste : Taste) : Solver := rdftSolver fun p fl =>
  match p.sz, p.vecsz with
  | [(d, kd)], some [] =>
    if d.n % 2 = 1 ∧ taste (.rdft p) fl ∧ Primes.isPrime d.n = some true ∧ kd = kind then
      .ret (some (.rdft (if kd = .R2HC00 then genericR2hc (genericW cexp d.n) d.n d.is d.os
        else genericHc2r (genericW cexp d.n) d.n d.is d.os)))
    else .nada
  | _, _ => .nada

/-- the loop `for (i = 1; i < n - i; ++i) { a = X[s*i]; b = X[s*(n-i)]; X[s*i] = F; X[s*(n-i)] = G; }`: rdft/dht-r2hc.c:49-60,
rdft/rdft-dht.c:53-63, 73-84 -/
def butterfly (F G : ℝ → ℝ → ℝ) (n : ℕ) (s : ℤ) (X : Ptr) (st : State) : State :=
  forN ((n - 1) / 2) (fun i0 st =>
    let i := i0 + 1
    let a := st.mem (X + (i : ℤ) * s)
    let b := st.mem (X + ((n - i : ℕ) : ℤ) * s)
    (st.set (X + (i : ℤ) * s) (F a b)).set (X + ((n - i : ℕ) : ℤ) * s) (G a b)) st

/-- `NO_DHT_R2HC`, kernel/ifftw.h:662 -/
def NO_DHT_R2HC : BitVec 20 := 0x8000

section
variable [CLib]

/-- rdft/dht-r2hc.c: `apply` 38-61, `applicable0` 81-90, `mkplan` 98-131 -/
noncomputable def dhtR2hc (taste : Taste) : Solver := rdftSolver fun p fl =>
  match p.sz, p.vecsz with
  | [(d, .DHT)], some [] =>
    if taste (.rdft p) fl then
      .need (mkproblemRdft [(d, .R2HC00)] (some []) p.I p.O) { lset := NO_DHT_R2HC } fun cld =>
      .ret (some (.rdft fun I O st => butterfly (fun a b => a - b) (fun a b => a + b) d.n d.os O (cld.rdftApply I O st)))
    else .nada
  | _, _ => .nada

/-- the first part of `apply_hc2r_save`, rdft/rdft-dht.c:98-113 -/
def hc2rSavePre (n : ℕ) (is os : ℤ) (I O : Ptr) (st : State) : State :=
  let st := st.set O (st.mem I)
  let st := forN ((n - 1) / 2) (fun i0 st =>
    let i := i0 + 1
    let a := st.mem (I + (i : ℤ) * is)
    let b := st.mem (I + ((n - i : ℕ) : ℤ) * is)
    (st.set (O + (i : ℤ) * os) (a - b)).set (O + ((n - i : ℕ) : ℤ) * os) (a + b)) st
  let i := (n - 1) / 2 + 1
  if i = n - i then st.set (O + (i : ℤ) * os) (st.mem (I + (i : ℤ) * is)) else st

/-- rdft/rdft-dht.c: `apply_r2hc` 40-64, `apply_hc2r` 67-90, `apply_hc2r_save` 93-119, `applicable0` 141-156, `mkplan` 164-207 -/
noncomputable def rdftDht (taste : Taste) : Solver := rdftSolver fun p fl =>
  match p.sz, p.vecsz with
  | [(d, kd)], some [] =>
    if (kd = .R2HC00 ∨ kd = .HC2R00) ∧ d.n > 2 ∧ taste (.rdft p) fl then
      if kd = .R2HC00 ∨ fl.nd = false then
        .need (mkproblemRdft [(d, .DHT)] (some []) p.I p.O) {} fun cld =>
        .ret (some (.rdft (if kd = .R2HC00 then
            fun I O st => butterfly (fun a b => (1 / 2) * a + (1 / 2) * b) (fun a b => (1 / 2) * b - (1 / 2) * a) d.n d.os O (cld.rdftApply I O st)
          else
            fun I O st => cld.rdftApply I O (butterfly (fun a b => a - b) (fun a b => a + b) d.n d.is I st))))
      else
        .need (mkproblemRdft [(d.inplace .OS, .DHT)] (some []) p.O p.O) {} fun cld =>
        .ret (some (.rdft fun I O st => cld.rdftApply O O (hc2rSavePre d.n d.is d.os I O st)))
    else .nada
  | _, _ => .nada

end
end FFTW.RdftS
