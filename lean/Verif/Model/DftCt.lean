import Verif.Model.DftSolvers
import Verif.Model.Primes
import Verif.Model.Twiddle
import Verif.Spec.TwStep

/-!
# dft/ct.c and dft/dftw-*.c — Cooley-Tukey
-/

namespace FFTW.DftS
open Tensor

variable [CLib]

/-- `DECDIT`, `DECDIF`, `DECDIF+TRANSPOSE`, dft/ct.h:46-48 -/
inductive Dec
  | dit | dif | difT
  deriving DecidableEq

/-- `apply` of a `plan_dftw`, dft/ct.h:23 -/
abbrev WPlan := Ptr → Ptr → State → State

/-- `ct_mkinferior`, dft/ct.h:25-31: arguments, `rio`, `iio`, `plnr` -/
abbrev Inferior := TwP → Ptr → Ptr → Flags → Mk (Option WPlan)

/-- `if (!cldw) goto nada;` -/
def Mk.needW {α : Type} (w : Mk (Option WPlan)) (k : WPlan → Mk (Option α)) : Mk (Option α) :=
  w.bind fun r => match r with
    | none => .ret none
    | some c => k c

/-- `X(tensor_tornk1)`, kernel/tensor.c:91-104 -/
def tornk1 : List Dim → Option Dim
  | [] => some ⟨1, 0, 0⟩
  | [d] => some d
  | _ => none

/-- dft/ct.c, `apply_dit` 33-44, `apply_dif` 46-58, `applicable` 82-117, `mkplan` 120-230; `taste` covers `NO_VRECURSEP`,
`force_vrecursionp` and `NO_NONTHREADEDP`.  A `choose_radix` that overflows (`none`) is undefined behaviour in C; here the
solver then declines.  `fm` says how `plnr` is changed before `cld` is planned: not at all in dft/ct.c, `nthr` is put back in threads/ct.c. -/
def ctWith (fm : Flags → FMod) (rdx : ℤ) (dec : Dec) (mkcldw : Inferior) (taste : Taste) : Solver := dftSolver fun p fl =>
  match p.sz, p.vecsz with
  | [d], some vec =>
    match tornk1 vec, Primes.chooseRadix rdx d.n with
    | some vd, some rr =>
      if (dec = .dit ∨ p.ri = p.ro ∨ fl.nd = false) ∧ rr > 1 ∧ (d.n : ℤ) > rr ∧ taste (.dft p) fl then
        let r := rr.toNat
        let m := d.n / r
        match dec with
        | .dit =>
          Mk.needW (mkcldw ⟨r, (m : ℤ) * d.os, (m : ℤ) * d.os, m, d.os, vd.n, vd.os, vd.os, 0, m⟩ p.ro p.io fl) fun cldw =>
          .need (mkproblemDft [⟨m, (r : ℤ) * d.is, d.os⟩] (some [⟨r, d.is, (m : ℤ) * d.os⟩, ⟨vd.n, vd.is, vd.os⟩]) p.ri p.ii p.ro p.io) (fm fl) fun cld =>
          .ret (some (.dft fun ri ii ro io st => cldw ro io (cld.dftApply ri ii ro io st)))
        | _ =>
          let tr : Bool := decide (dec = .difT)
          let cors := if tr then vd.is else (m : ℤ) * d.is
          let covs := if tr then (m : ℤ) * d.is else vd.is
          if tr = true ∧ ¬ (r = vd.n ∧ d.is = (r : ℤ) * cors ∧ p.ri = p.ro ∧ d.is = (r : ℤ) * d.os ∧ cors = d.os ∧ covs = vd.os) then .nada
          else
            Mk.needW (mkcldw ⟨r, (m : ℤ) * d.is, cors, m, d.is, vd.n, vd.is, covs, 0, m⟩ p.ri p.ii fl) fun cldw =>
            .need (mkproblemDft [⟨m, d.is, (r : ℤ) * d.os⟩] (some [⟨r, cors, d.os⟩, ⟨vd.n, covs, vd.os⟩]) p.ri p.ii p.ro p.io) (fm fl) fun cld =>
            .ret (some (.dft fun ri ii ro io st => cld.dftApply ri ii ro io (cldw ri ii st)))
      else .nada
    | _, _ => .nada
  | _, _ => .nada

/-- dft/ct.c -/
def ct (rdx : ℤ) (dec : Dec) (mkcldw : Inferior) (taste : Taste) : Solver := ctWith (fun _ => {}) rdx dec mkcldw taste

/-- the twiddle program of dft/dftw-generic.c:42 -/
def fullTw : Twiddle.Prog := ⟨[⟨.full, 0, 0⟩], 1⟩

/-- the table of dft/dftw-generic.c:40-48 ("R and M are swapped") -/
noncomputable def dftwW (cexp : ℕ → ℤ → ℝ × ℝ) (r m : ℕ) (t : ℕ) : ℝ := (Twiddle.compute cexp fullTw (r * m) m r).getD t 0

/-- body of the innermost loop of `bytwiddle`, dft/dftw-generic.c:63-71 -/
def bytw1 (W : ℕ → ℝ) (m : ℕ) (rs ms : ℤ) (ir im : ℕ) (rio iio : Ptr) (st : State) : State :=
  let pr := rio + (ms * (im : ℤ) + rs * (ir : ℤ))
  let pi := iio + (ms * (im : ℤ) + rs * (ir : ℤ))
  let xr := st.mem pr
  let xi := st.mem pi
  let wr := W (2 * im + 2 * (m - 1) * ir - 2)
  let wi := W (2 * im + 2 * (m - 1) * ir - 1)
  (st.set pr (xr * wr + xi * wi)).set pi (xi * wr - xr * wi)

/-- `bytwiddle`, dft/dftw-generic.c:50-77: `ir` from 1, `im` from `mb` (1 if `mb = 0`) to `me - 1` -/
def bytwiddle (W : ℕ → ℝ) (t : TwP) (rio iio : Ptr) (st : State) : State :=
  let mb := if t.mb = 0 then 1 else t.mb
  forN t.v (fun iv st =>
    forN (t.r - 1) (fun ir0 st =>
      forN (t.mb + t.mc - mb) (fun im0 st =>
        bytw1 W t.m t.irs t.ms (ir0 + 1) (mb + im0) (rio + (iv : ℤ) * t.ivs) (iio + (iv : ℤ) * t.ivs) st) st) st) st

/-- dft/dftw-generic.c, `applicable` 79-87, `apply_dit` 89-99, `apply_dif` 101-111, `mkcldw` 137-187 -/
noncomputable def dftwGeneric (cexp : ℕ → ℤ → ℝ × ℝ) (dec : Dec) (taste : TwP → Flags → Bool) : Inferior := fun t rio iio fl =>
  if t.irs = t.ors ∧ t.ivs = t.ovs ∧ taste t fl then
    let dm := t.ms * (t.mb : ℤ)
    .need (mkproblemDft [⟨t.r, t.irs, t.irs⟩] (some [⟨t.mc, t.ms, t.ms⟩, ⟨t.v, t.ivs, t.ivs⟩]) (rio + dm) (iio + dm) (rio + dm) (iio + dm)) {} fun cld =>
    .ret (some (if dec = .dit then
      fun rio iio st =>
        cld.dftApply (rio + dm) (iio + dm) (rio + dm) (iio + dm) (bytwiddle (dftwW cexp t.r t.m) t rio iio st)
    else
      fun rio iio st =>
        bytwiddle (dftwW cexp t.r t.m) t rio iio (cld.dftApply (rio + dm) (iio + dm) (rio + dm) (iio + dm) st)))
  else .ret none

end FFTW.DftS
