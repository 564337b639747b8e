import Verif.Model.Buffered
import Verif.Model.Primes
import Verif.Model.Twiddle

/-!
# dft/rader.c

The list `omegas` of shared tables (kernel/rader.c) is modelled in Model/RaderTl.lean; here every plan has its own table: `rader_tl_find`
returns a table only if one was computed for the same `n` and `ginv`, by a plan for the same problem.
-/

namespace FFTW.DftS
open Tensor

variable [CLib]

/-- kernel/ifftw.h:648 -/
def ESTIMATE : BitVec 20 := 0x2

/-- `for (gpower = 1, k = 0; k < cnt; ++k, gpower = MULMOD(gpower, g, n)) body(k, gpower)`; `MULMOD` (kernel/ifftw.h:1040-1051) never overflows for the
`n` and `g` used here (C16), so that `getD` does not matter -/
def permLoop (g n : ℤ) (cnt : ℕ) (body : ℕ → ℤ → State → State) (st : State) : State :=
  (iter cnt (fun k (s : ℤ × State) => ((Primes.MULMOD s.1 g n).getD 0, body k s.1 s.2)) (1, st)).2

/-- `mkomega`, dft/rader.c:45-74, without the list of shared tables: the table is filled and transformed in place by the plan `cld` (here in block 0 of a
memory of its own) -/
noncomputable def mkomega (cexp : ℕ → ℤ → ℝ × ℝ) (n : ℕ) (ginv : ℤ) (cld : Plan) (t : ℕ) : ℝ :=
  let om : Ptr := ⟨0, 0⟩
  let scale : ℝ := (n : ℝ) - 1
  let st := permLoop ginv n (n - 1) (fun i gpower st =>
      let w := cexp n gpower
      (st.set (om + (2 * (i : ℤ))) (w.1 / scale)).set (om + (2 * (i : ℤ) + 1)) (-1 * w.2 / scale))
    { mem := fun _ => 0, next := 1 }
  (cld.dftApply om (om + (1 : ℤ)) om (om + (1 : ℤ)) st).mem (om + (t : ℤ))

/-- `apply`, dft/rader.c:95-165 -/
def raderApply (omega : ℕ → ℝ) (cld1 cld2 : Plan) (r : ℕ) (g ginv is os : ℤ) (ri ii ro io : Ptr) : State → State :=
  fun st =>
  let r0 := st.mem ri
  let i0 := st.mem ii
  withBuf (fun buf st =>
    let st := permLoop g r (r - 1) (fun k gpower st =>
      let rA := st.mem (ri + gpower * is)
      let iA := st.mem (ii + gpower * is)
      (st.set (buf + (2 * (k : ℤ))) rA).set (buf + (2 * (k : ℤ) + 1)) iA) st
    let st := cld1.dftApply buf (buf + (1 : ℤ)) (ro + os) (io + os) st
    let st := st.set ro (r0 + st.mem (ro + os))
    let st := st.set io (i0 + st.mem (io + os))
    let st := forN (r - 1) (fun k st =>
      let rW := omega (2 * k)
      let iW := omega (2 * k + 1)
      let o : ℤ := ((k : ℤ) + 1) * os
      let rB := st.mem (ro + o)
      let iB := st.mem (io + o)
      (st.set (ro + o) (rW * rB - iW * iB)).set (io + o) (-(rW * iB + iW * rB))) st
    let st := st.set (ro + os) (st.mem (ro + os) + r0)
    let st := st.set (io + os) (st.mem (io + os) - i0)
    let st := cld2.dftApply (ro + os) (io + os) buf (buf + (1 : ℤ)) st
    permLoop ginv r (r - 1) (fun k gpower st =>
      let st := st.set (ro + gpower * os) (st.mem (buf + (2 * (k : ℤ))))
      st.set (io + gpower * os) (-st.mem (buf + (2 * (k : ℤ) + 1)))) st) st

/-- dft/rader.c: `applicable` 213-228 (`taste` covers `NO_SLOWP`), `mkP` 230-289, `awake` 169-191 -/
noncomputable def rader (cexp : ℕ → ℤ → ℝ × ℝ) (taste : Taste) : Solver := dftSolver fun p fl =>
  match p.sz, p.vecsz with
  | [d], some [] =>
    if taste (.dft p) fl ∧ Primes.isPrime d.n = some true then
      let buf := planBuf [p.ri, p.ii, p.ro, p.io]
      .need (mkproblemDft [⟨d.n - 1, 2, d.os⟩] (some [⟨1, 0, 0⟩]) buf (buf + (1 : ℤ)) (p.ro + d.os) (p.io + d.os)) { lset := NO_SLOW } fun cld1 =>
      .need (mkproblemDft [⟨d.n - 1, d.os, 2⟩] (some [⟨1, 0, 0⟩]) (p.ro + d.os) (p.io + d.os) buf (buf + (1 : ℤ))) { lset := NO_SLOW } fun cld2 =>
      .need (mkproblemDft [⟨d.n - 1, 2, 2⟩] (some [⟨1, 0, 0⟩]) buf (buf + (1 : ℤ)) buf (buf + (1 : ℤ))) { lset := NO_SLOW, uset := ESTIMATE } fun cldOmega =>
      let g := (Primes.findGenerator d.n).getD 0
      let ginv := (Primes.powerMod g ((d.n : ℤ) - 2) d.n).getD 0
      .ret (some (.dft (raderApply (mkomega cexp d.n ginv cldOmega) cld1 cld2 d.n g ginv d.is d.os)))
    else .nada
  | _, _ => .nada

end FFTW.DftS
