import Verif.Model.RdftSolvers
import Verif.Model.Rader

/-!
# rdft/dht-rader.c (with `R2HC_ONLY_CONV` = 1)

As in Model/Rader, every plan has its own table `omega`; the sharing of tables is modelled in Model/RaderTl.  `NO_SLOWP` is part of `taste`.
-/

namespace FFTW.RdftS
open Tensor DftS

/-- `for (; k < k0 + cnt; ++k, gpower = MULMOD(gpower, g, n)) body(k, gpower)` from `k = k0`: the final `gpower` and memory -/
def permWalk (g n : ℤ) (k0 cnt : ℕ) (body : ℕ → ℤ → State → State) (s : ℤ × State) : ℤ × State :=
  iter cnt (fun t (s : ℤ × State) => ((Primes.MULMOD s.1 g n).getD 0, body (k0 + t) s.1 s.2)) s

/-- `mkomega`, rdft/dht-rader.c:157-194: the table is filled and transformed in place by `cld` (here in block 0 of a memory of its own) -/
noncomputable def dhtOmega (cexp : ℕ → ℤ → ℝ × ℝ) (n npad : ℕ) (ginv : ℤ) (cld : Plan) (t : ℕ) : ℝ :=
  let om : Ptr := ⟨0, 0⟩
  let scale : ℝ := npad
  let st := permLoop ginv n (n - 1) (fun i gpower st =>
      let w := cexp n gpower
      st.set (om + (i : ℤ)) ((w.1 + w.2) / scale))
    { mem := fun _ => 0, next := 1 }
  let st := forN (npad - (n - 1)) (fun t st => st.set (om + ((n - 1 + t : ℕ) : ℤ)) 0) st
  let st := if npad > n - 1 then
      forN (n - 2) (fun i0 st => let i := i0 + 1; st.set (om + ((npad - i : ℕ) : ℤ)) (st.mem (om + ((n - 1 - i : ℕ) : ℤ)))) st
    else st
  (cld.rdftApply om om st).mem (om + (t : ℤ))

/-- multiplication by omega, rdft/dht-rader.c:93-114 -/
def dhtMul (omega : ℕ → ℝ) (npad : ℕ) (buf : Ptr) (st : State) : State :=
  let st := st.set buf (st.mem buf * omega 0)
  let st := forN (npad / 2 - 1) (fun k0 st =>
    let k := k0 + 1
    let rW := omega k
    let iW := omega (npad - k)
    let rB := st.mem (buf + (k : ℤ))
    let iB := st.mem (buf + ((npad - k : ℕ) : ℤ))
    let a := rW * rB - iW * iB
    let b := rW * iB + iW * rB
    (st.set (buf + (k : ℤ)) (a + b)).set (buf + ((npad - k : ℕ) : ℤ)) (a - b)) st
  let k := npad / 2
  st.set (buf + (k : ℤ)) (st.mem (buf + (k : ℤ)) * omega k)

/-- the inverse permutation, rdft/dht-rader.c:128-146 -/
def dhtUnshuffle (n npad : ℕ) (ginv os : ℤ) (buf O : Ptr) (st : State) : State :=
  let st := st.set (O + os) (st.mem buf)
  let plus : ℕ → ℤ → State → State := fun k gpower st =>
    st.set (O + gpower * os) (st.mem (buf + (k : ℤ)) + st.mem (buf + ((npad - k : ℕ) : ℤ)))
  if npad = n - 1 then
    let s := permWalk ginv n 1 (npad / 2 - 1) plus (ginv, st)
    let k := npad / 2
    let st := s.2.set (O + s.1 * os) (s.2.mem (buf + (k : ℤ)))
    let gpower := (Primes.MULMOD s.1 ginv n).getD 0
    (permWalk ginv n (k + 1) (npad - (k + 1)) (fun k gpower st =>
      st.set (O + gpower * os) (st.mem (buf + ((npad - k : ℕ) : ℤ)) - st.mem (buf + (k : ℤ)))) (gpower, st)).2
  else (permWalk ginv n 1 (n - 2) plus (ginv, st)).2

/-- `apply`, rdft/dht-rader.c:59-155 -/
def dhtRaderApply (omega : ℕ → ℝ) (cld1 cld2 : Plan) (n npad : ℕ) (g ginv is os : ℤ) (I O : Ptr) : State → State :=
  withBuf fun buf st =>
    let st := permLoop g n (n - 1) (fun k gpower st => st.set (buf + (k : ℤ)) (st.mem (I + gpower * is))) st
    let st := forN (npad - (n - 1)) (fun t st => st.set (buf + ((n - 1 + t : ℕ) : ℤ)) 0) st
    let st := cld1.rdftApply buf buf st
    let r0 := st.mem I
    let st := st.set O (r0 + st.mem buf)
    let st := dhtMul omega npad buf st
    let st := st.set buf (st.mem buf + r0)
    let st := cld2.rdftApply buf buf st
    dhtUnshuffle n npad ginv os buf O st

/-- `choose_transform_size`, rdft/dht-rader.c:268-274 -/
def dhtTransformSize (minsz : Int) : C Int := do
  let b ← Primes.factorsInto minsz [2, 3, 5]
  if !b || decide (minsz % 2 ≠ 0) then
    let m ← cadd minsz 1
    dhtTransformSize m
  else return minsz
partial_fixpoint

/-- the size of the convolution, rdft/dht-rader.c:298-301 -/
def dhtNpad (pad : Bool) (n : ℕ) : C Int :=
  if pad then do
    let a ← csub n 1
    let a ← cmul 2 a
    let m ← csub a 1
    dhtTransformSize m
  else some ((n : ℤ) - 1)

variable [CLib]

/-- rdft/dht-rader.c: `applicable` 249-266, `mkplan` 276-370, `awake` 203-226.  If the computation of `npad` overflows, the behaviour of the C code is
undefined; the model gives up. -/
noncomputable def dhtRader (cexp : ℕ → ℤ → ℝ × ℝ) (pad : Bool) (taste : Taste) : Solver := rdftSolver fun p fl =>
  match p.sz, p.vecsz with
  | [(d, .DHT)], some [] =>
    if Primes.isPrime d.n = some true ∧ 2 < d.n ∧ taste (.rdft p) fl then
      match dhtNpad pad d.n with
      | none => .nada
      | some npadI =>
        let npad := npadI.toNat
        let buf := planBuf [p.I, p.O]
        .need (mkproblemRdft [(⟨npad, 1, 1⟩, .R2HC00)] (some [⟨1, 0, 0⟩]) buf buf) { lset := NO_SLOW } fun cld1 =>
        .need (mkproblemRdft [(⟨npad, 1, 1⟩, .R2HC00)] (some [⟨1, 0, 0⟩]) buf buf) { lset := NO_SLOW } fun cld2 =>
        .need (mkproblemRdft [(⟨npad, 1, 1⟩, .R2HC00)] (some [⟨1, 0, 0⟩]) buf buf) { lset := NO_SLOW, uset := ESTIMATE } fun cldOmega =>
        let g := (Primes.findGenerator d.n).getD 0
        let ginv := (Primes.powerMod g ((d.n : ℤ) - 2) d.n).getD 0
        .ret (some (.rdft (dhtRaderApply (dhtOmega cexp d.n npad ginv cldOmega) cld1 cld2 d.n npad g ginv d.is d.os)))
    else .nada
  | _, _ => .nada

end FFTW.RdftS
