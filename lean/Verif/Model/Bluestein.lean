import Verif.Model.Rader

/-!
# dft/bluestein.c

The table `w` is read by no other plan and is a function of the index; the table `W` is transformed in place by the child plan (in block 0 of a
memory of its own).
-/

namespace FFTW.DftS
open Tensor

variable [CLib]

/-- `while (ksq > n2) ksq -= n2`, dft/bluestein.c:46 -/
def redKsq (ksq n2 : ℕ) : ℕ := if 0 < n2 ∧ n2 < ksq then redKsq (ksq - n2) n2 else ksq
termination_by ksq

/-- `bluestein_sequence`, dft/bluestein.c:37-50; entry `k` is the pair `w[2k], w[2k+1]` -/
def blueSeq (cexp : ℕ → ℤ → ℝ × ℝ) (n : ℕ) : ℕ → ℝ × ℝ :=
  (iter n (fun k (s : ℕ × (ℕ → ℝ × ℝ)) =>
    (redKsq (s.1 + (2 * k + 1)) (2 * n), Function.update s.2 k (cexp (2 * n) (s.1 : ℤ)))) (0, fun _ => (0, 0))).2

/-- `mktwiddle`, dft/bluestein.c:52-80: the table `W` -/
noncomputable def blueW (w : ℕ → ℝ × ℝ) (n nb : ℕ) (cld : Plan) (t : ℕ) : ℝ :=
  let W : Ptr := ⟨0, 0⟩
  let nbf : ℝ := nb
  let st : State := { mem := fun _ => 0, next := 1 }
  let st := forN nb (fun i st => (st.set (W + (2 * (i : ℤ) + 1)) 0).set (W + (2 * (i : ℤ))) 0) st
  let st := st.set W ((w 0).1 / nbf)
  let st := st.set (W + (1 : ℤ)) ((w 0).2 / nbf)
  let st := forN (n - 1) (fun i0 st =>
    let i : ℤ := (i0 : ℤ) + 1
    let st := (st.set (W + (2 * ((nb : ℤ) - i))) ((w (i0 + 1)).1 / nbf)).set (W + (2 * i)) ((w (i0 + 1)).1 / nbf)
    (st.set (W + (2 * ((nb : ℤ) - i) + 1)) ((w (i0 + 1)).2 / nbf)).set (W + (2 * i + 1)) ((w (i0 + 1)).2 / nbf)) st
  (cld.dftApply W (W + (1 : ℤ)) W (W + (1 : ℤ)) st).mem (W + (t : ℤ))

/-- `apply`, dft/bluestein.c:82-128 -/
def blueApply (w : ℕ → ℝ × ℝ) (W : ℕ → ℝ) (cldf : Plan) (n nb : ℕ) (is os : ℤ) (ri ii ro io : Ptr) : State → State :=
  withBuf fun b st =>
    let st := forN n (fun i st =>
      let xr := st.mem (ri + (i : ℤ) * is)
      let xi := st.mem (ii + (i : ℤ) * is)
      let wr := (w i).1
      let wi := (w i).2
      (st.set (b + (2 * (i : ℤ))) (xr * wr + xi * wi)).set (b + (2 * (i : ℤ) + 1)) (xi * wr - xr * wi)) st
    let st := forN (nb - n) (fun i0 st =>
      let i : ℤ := (n : ℤ) + (i0 : ℤ)
      (st.set (b + (2 * i + 1)) 0).set (b + (2 * i)) 0) st
    let st := cldf.dftApply b (b + (1 : ℤ)) b (b + (1 : ℤ)) st
    let st := forN nb (fun i st =>
      let xr := st.mem (b + (2 * (i : ℤ)))
      let xi := st.mem (b + (2 * (i : ℤ) + 1))
      let wr := W (2 * i)
      let wi := W (2 * i + 1)
      (st.set (b + (2 * (i : ℤ))) (xi * wr + xr * wi)).set (b + (2 * (i : ℤ) + 1)) (xr * wr - xi * wi)) st
    let st := cldf.dftApply b (b + (1 : ℤ)) b (b + (1 : ℤ)) st
    forN n (fun i st =>
      let xi := st.mem (b + (2 * (i : ℤ)))
      let xr := st.mem (b + (2 * (i : ℤ) + 1))
      let wr := (w i).1
      let wi := (w i).2
      (st.set (ro + (i : ℤ) * os) (xr * wr + xi * wi)).set (io + (i : ℤ) * os) (xi * wr - xr * wi)) st

/-- `choose_transform_size`, dft/bluestein.c:180-185 -/
def chooseTransformSize (minsz : Int) : C Int := do
  let b ← Primes.factorsIntoSmallPrimes minsz
  if b then return minsz
  else
    let m ← cadd minsz 1
    chooseTransformSize m
partial_fixpoint

/-- the size of the convolution, dft/bluestein.c:204 -/
def blueNb (n : ℕ) : C Int := do
  let a ← cmul 2 n
  let m ← csub a 1
  chooseTransformSize m

/-- dft/bluestein.c: `applicable` 148-165 (`taste` covers `NO_SLOWP`), `mkplan` 187-237.  If the computation of `nb` overflows, the behaviour
of the C code is undefined; the model gives up. -/
noncomputable def bluestein (cexp : ℕ → ℤ → ℝ × ℝ) (taste : Taste) : Solver := dftSolver fun p fl =>
  match p.sz, p.vecsz with
  | [d], some [] =>
    if taste (.dft p) fl ∧ Primes.isPrime d.n = some true ∧ 16 < d.n then
      match blueNb d.n with
      | none => .nada
      | some nbI =>
        let nb := nbI.toNat
        let buf := planBuf [p.ri, p.ii, p.ro, p.io]
        .need (mkproblemDft [⟨nb, 2, 2⟩] (some [⟨1, 0, 0⟩]) buf (buf + (1 : ℤ)) buf (buf + (1 : ℤ))) { lset := NO_SLOW } fun cldf =>
        let w := blueSeq cexp d.n
        .ret (some (.dft (blueApply w (blueW w d.n nb cldf) cldf d.n nb d.is d.os)))
    else .nada
  | _, _ => .nada

end FFTW.DftS
