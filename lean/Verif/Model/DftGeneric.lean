import Verif.Model.DftSolvers
import Verif.Model.Primes
import Verif.Model.Twiddle

/-!
# dft/generic.c

Buffers from `BUF_ALLOC` that no other plan sees are local variables of type `ℕ → ℝ`.  The twiddle table of the awake plan is
`Twiddle.compute` with an arbitrary sine/cosine generator `cexp`.
-/

namespace FFTW.DftS
open Tensor

/-- state of `hartley`: the array `o`, `sr`, `si` -/
structure Hart where
  o : ℕ → ℝ
  sr : ℝ
  si : ℝ

/-- `hartley`, dft/generic.c:54-71; `o` has been advanced by `2 + 4*(i-1)` when the loop body runs with `i = i0+1` -/
def hartley (mem : Ptr → ℝ) (n : ℕ) (xr xi : Ptr) (xs : ℤ) : Hart :=
  iter ((n - 1) / 2) (fun i0 s =>
      let i : ℤ := (i0 : ℤ) + 1
      let b := 2 + 4 * i0
      let o0 := mem (xr + i * xs) + mem (xr + ((n : ℤ) - i) * xs)
      let o1 := mem (xi + i * xs) + mem (xi + ((n : ℤ) - i) * xs)
      let o2 := mem (xr + i * xs) - mem (xr + ((n : ℤ) - i) * xs)
      let o3 := mem (xi + i * xs) - mem (xi + ((n : ℤ) - i) * xs)
      { o := Function.update (Function.update (Function.update (Function.update s.o b o0) (b + 1) o1) (b + 2) o2) (b + 3) o3,
        sr := s.sr + o0, si := s.si + o1 })
    { o := Function.update (Function.update (fun _ => 0) 0 (mem xr)) 1 (mem xi), sr := mem xr, si := mem xi }

/-- accumulators of `cdot` -/
structure CDot where
  rr : ℝ
  ri : ℝ
  ir : ℝ
  ii : ℝ

/-- the loop of `cdot`, dft/generic.c:36-47; `w` is the table from the current position of `W` -/
def cdot (n : ℕ) (x w : ℕ → ℝ) : CDot :=
  iter ((n - 1) / 2) (fun i0 s =>
      { rr := s.rr + x (2 + 4 * i0) * w (2 * i0), ir := s.ir + x (2 + 4 * i0 + 1) * w (2 * i0),
        ri := s.ri + x (2 + 4 * i0 + 2) * w (2 * i0 + 1), ii := s.ii + x (2 + 4 * i0 + 3) * w (2 * i0 + 1) })
    { rr := x 0, ri := 0, ir := x 1, ii := 0 }

/-- `apply`, dft/generic.c:73-93 -/
def genericApply (W : ℕ → ℝ) (n : ℕ) (is os : ℤ) (ri ii ro io : Ptr) (st : State) : State :=
  let h := hartley st.mem n ri ii is
  let st := (st.set ro h.sr).set io h.si
  forN ((n - 1) / 2) (fun i0 st =>
    let i : ℤ := (i0 : ℤ) + 1
    let c := cdot n h.o fun t => W (i0 * (n - 1) + t)
    (((st.set (ro + i * os) (c.rr + c.ii)).set (io + i * os) (c.ir - c.ri)).set
      (ro + ((n : ℤ) - i) * os) (c.rr - c.ii)).set (io + ((n : ℤ) - i) * os) (c.ir + c.ri)) st

/-- `half_tw`, dft/generic.c:98-101 -/
def halfTw : Twiddle.Prog := ⟨[⟨.half, 1, 0⟩], 1⟩

/-- the table requested in `awake`, dft/generic.c:95-106 -/
def genericW (cexp : ℕ → ℤ → ℝ × ℝ) (n : ℕ) (t : ℕ) : ℝ := (Twiddle.compute cexp halfTw n n ((n - 1) / 2)).getD t 0

/-- dft/generic.c:115-147 (`NO_LARGE_GENERICP`, `NO_SLOWP` are part of `taste`) -/
noncomputable def generic (cexp : ℕ → ℤ → ℝ × ℝ) (taste : Taste) : Solver := dftSolver fun p fl =>
  match p.sz, p.vecsz with
  | [d], some [] =>
    if d.n % 2 = 1 ∧ taste (.dft p) fl ∧ Primes.isPrime d.n = some true then
      .ret (some (.dft (genericApply (genericW cexp d.n) d.n d.is d.os)))
    else .nada
  | _, _ => .nada

end FFTW.DftS
