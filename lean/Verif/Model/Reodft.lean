import Verif.Model.RdftSolvers
import Verif.Model.Buffered
import Verif.Model.DftCt
import Verif.Model.Twiddle

/-!
# reodft/ — real even and odd transforms

Each `apply` is a loop over at most one vector dimension; `withBuf` inside that loop models the buffer allocated around it.  Index differences
are never negative, so they are written with natural subtraction.  A loop `for (i = 1; i < n - i; ++i)` makes `(n-1)/2` rounds and leaves
`i = (n-1)/2 + 1`.  The tests `NO_SLOWP` are part of `taste`.
-/

namespace FFTW.Reodft
open Tensor DftS RdftS

variable [CLib]

/-- `for (iv = 0; iv < vl; ++iv, I += ivs, O += ovs) body` -/
def vloop (vd : Dim) (body : Ptr → Ptr → State → State) (I O : Ptr) (st : State) : State :=
  forN vd.n (fun iv st => body (I + (iv : ℤ) * vd.is) (O + (iv : ℤ) * vd.os) st) st

/-! ### reodft/redft00e-r2hc-pad.c -/

/-- filling the buffer, reodft/redft00e-r2hc-pad.c:57-63 -/
def redft00Pre (n : ℕ) (is : ℤ) (I buf : Ptr) (st : State) : State :=
  let st := st.set buf (st.mem I)
  let st := forN (n - 1) (fun i0 st =>
    let i := i0 + 1
    let a := st.mem (I + (i : ℤ) * is)
    (st.set (buf + (i : ℤ)) a).set (buf + ((2 * n - i : ℕ) : ℤ)) a) st
  st.set (buf + (n : ℤ)) (st.mem (I + (n : ℤ) * is))

/-- `apply` 43-77, `applicable0` 100-111, `mkplan` 118-184, reodft/redft00e-r2hc-pad.c -/
def redft00Pad (taste : Taste) : Solver := rdftSolver fun p fl =>
  match p.sz, p.vecsz with
  | [(d, .REDFT00)], some v =>
    match tornk1 v with
    | none => .nada
    | some vd =>
      if d.n > 1 ∧ taste (.rdft p) fl then
        let n := d.n - 1
        let buf := planBuf [p.I, p.O]
        .need (mkproblemRdft [(⟨2 * n, 1, 1⟩, .R2HC00)] (some []) buf buf) {} fun cld =>
        .need (mkproblemRdft [] (some [⟨n + 1, 1, d.os⟩]) buf p.O) {} fun cldcpy =>
        .ret (some (.rdft (vloop vd fun I O => withBuf fun buf st =>
          cldcpy.rdftApply buf O (cld.rdftApply buf buf (redft00Pre n d.is I buf st)))))
      else .nada
  | _, _ => .nada

/-! ### reodft/rodft00e-r2hc-pad.c -/

/-- filling the buffer, reodft/rodft00e-r2hc-pad.c:55-61 -/
def rodft00Pre (n : ℕ) (is : ℤ) (I buf : Ptr) (st : State) : State :=
  let st := st.set buf 0
  let st := forN (n - 1) (fun i0 st =>
    let i := i0 + 1
    let a := st.mem (I + ((i - 1 : ℕ) : ℤ) * is)
    (st.set (buf + (i : ℤ)) (-a)).set (buf + ((2 * n - i : ℕ) : ℤ)) a) st
  st.set (buf + (n : ℤ)) 0

/-- `apply` 43-77, `applicable0` 100-109, `mkplan` 116-182, reodft/rodft00e-r2hc-pad.c -/
def rodft00Pad (taste : Taste) : Solver := rdftSolver fun p fl =>
  match p.sz, p.vecsz with
  | [(d, .RODFT00)], some v =>
    match tornk1 v with
    | none => .nada
    | some vd =>
      if taste (.rdft p) fl then
        let n := d.n + 1
        let buf := planBuf [p.I, p.O]
        .need (mkproblemRdft [(⟨2 * n, 1, 1⟩, .R2HC00)] (some []) buf buf) {} fun cld =>
        .need (mkproblemRdft [] (some [⟨n - 1, -1, d.os⟩]) (buf + (2 * (n : ℤ) - 1)) p.O) {} fun cldcpy =>
        .ret (some (.rdft (vloop vd fun I O => withBuf fun buf st =>
          cldcpy.rdftApply (buf + (2 * (n : ℤ) - 1)) O (cld.rdftApply buf buf (rodft00Pre n d.is I buf st)))))
      else .nada
  | _, _ => .nada

/-! ### reodft/reodft010e-r2hc.c -/

/-- lines 97-111 -/
def re01Pre (W : ℕ → ℝ) (n : ℕ) (is : ℤ) (I buf : Ptr) (st : State) : State :=
  let st := st.set buf (st.mem I)
  let st := forN ((n - 1) / 2) (fun i0 st =>
    let i := i0 + 1
    let a := st.mem (I + (i : ℤ) * is)
    let b := st.mem (I + ((n - i : ℕ) : ℤ) * is)
    let apb := a + b
    let amb := a - b
    let wa := W (2 * i)
    let wb := W (2 * i + 1)
    (st.set (buf + (i : ℤ)) (wa * amb + wb * apb)).set (buf + ((n - i : ℕ) : ℤ)) (wa * apb - wb * amb)) st
  let i := (n - 1) / 2 + 1
  if i = n - i then st.set (buf + (i : ℤ)) (2 * st.mem (I + (i : ℤ) * is) * W (2 * i)) else st

/-- lines 118-130 -/
def re01Post (n : ℕ) (os : ℤ) (buf O : Ptr) (st : State) : State :=
  let st := st.set O (st.mem buf)
  let st := forN ((n - 1) / 2) (fun i0 st =>
    let i := i0 + 1
    let a := st.mem (buf + (i : ℤ))
    let b := st.mem (buf + ((n - i : ℕ) : ℤ))
    let k := i + i
    (st.set (O + ((k - 1 : ℕ) : ℤ) * os) (a - b)).set (O + (k : ℤ) * os) (a + b)) st
  let i := (n - 1) / 2 + 1
  if i = n - i then st.set (O + ((n - 1 : ℕ) : ℤ) * os) (st.mem (buf + (i : ℤ))) else st

/-- lines 151-165 -/
def ro01Pre (W : ℕ → ℝ) (n : ℕ) (is : ℤ) (I buf : Ptr) (st : State) : State :=
  let st := st.set buf (st.mem (I + ((n - 1 : ℕ) : ℤ) * is))
  let st := forN ((n - 1) / 2) (fun i0 st =>
    let i := i0 + 1
    let a := st.mem (I + ((n - 1 - i : ℕ) : ℤ) * is)
    let b := st.mem (I + ((i - 1 : ℕ) : ℤ) * is)
    let apb := a + b
    let amb := a - b
    let wa := W (2 * i)
    let wb := W (2 * i + 1)
    (st.set (buf + (i : ℤ)) (wa * amb + wb * apb)).set (buf + ((n - i : ℕ) : ℤ)) (wa * apb - wb * amb)) st
  let i := (n - 1) / 2 + 1
  if i = n - i then st.set (buf + (i : ℤ)) (2 * st.mem (I + ((i - 1 : ℕ) : ℤ) * is) * W (2 * i)) else st

/-- lines 172-184 -/
def ro01Post (n : ℕ) (os : ℤ) (buf O : Ptr) (st : State) : State :=
  let st := st.set O (st.mem buf)
  let st := forN ((n - 1) / 2) (fun i0 st =>
    let i := i0 + 1
    let a := st.mem (buf + (i : ℤ))
    let b := st.mem (buf + ((n - i : ℕ) : ℤ))
    let k := i + i
    (st.set (O + ((k - 1 : ℕ) : ℤ) * os) (b - a)).set (O + (k : ℤ) * os) (a + b)) st
  let i := (n - 1) / 2 + 1
  if i = n - i then st.set (O + ((n - 1 : ℕ) : ℤ) * os) (-st.mem (buf + (i : ℤ))) else st

/-- lines 203-214 -/
def re10Pre (n : ℕ) (is : ℤ) (I buf : Ptr) (st : State) : State :=
  let st := st.set buf (st.mem I)
  let st := forN ((n - 1) / 2) (fun i0 st =>
    let i := i0 + 1
    let k := i + i
    let u := st.mem (I + ((k - 1 : ℕ) : ℤ) * is)
    let v := st.mem (I + (k : ℤ) * is)
    (st.set (buf + ((n - i : ℕ) : ℤ)) u).set (buf + (i : ℤ)) v) st
  let i := (n - 1) / 2 + 1
  if i = n - i then st.set (buf + (i : ℤ)) (st.mem (I + ((n - 1 : ℕ) : ℤ) * is)) else st

/-- lines 221-233 -/
def re10Post (W : ℕ → ℝ) (n : ℕ) (os : ℤ) (buf O : Ptr) (st : State) : State :=
  let st := st.set O (2 * st.mem buf)
  let st := forN ((n - 1) / 2) (fun i0 st =>
    let i := i0 + 1
    let a := 2 * st.mem (buf + (i : ℤ))
    let b := 2 * st.mem (buf + ((n - i : ℕ) : ℤ))
    let wa := W (2 * i)
    let wb := W (2 * i + 1)
    (st.set (O + (i : ℤ) * os) (wa * a + wb * b)).set (O + ((n - i : ℕ) : ℤ) * os) (wb * a - wa * b)) st
  let i := (n - 1) / 2 + 1
  if i = n - i then st.set (O + (i : ℤ) * os) (2 * st.mem (buf + (i : ℤ)) * W (2 * i)) else st

/-- lines 254-265 -/
def ro10Pre (n : ℕ) (is : ℤ) (I buf : Ptr) (st : State) : State :=
  let st := st.set buf (st.mem I)
  let st := forN ((n - 1) / 2) (fun i0 st =>
    let i := i0 + 1
    let k := i + i
    let u := -st.mem (I + ((k - 1 : ℕ) : ℤ) * is)
    let v := st.mem (I + (k : ℤ) * is)
    (st.set (buf + ((n - i : ℕ) : ℤ)) u).set (buf + (i : ℤ)) v) st
  let i := (n - 1) / 2 + 1
  if i = n - i then st.set (buf + (i : ℤ)) (-st.mem (I + ((n - 1 : ℕ) : ℤ) * is)) else st

/-- lines 272-284 -/
def ro10Post (W : ℕ → ℝ) (n : ℕ) (os : ℤ) (buf O : Ptr) (st : State) : State :=
  let st := st.set (O + ((n - 1 : ℕ) : ℤ) * os) (2 * st.mem buf)
  let st := forN ((n - 1) / 2) (fun i0 st =>
    let i := i0 + 1
    let a := 2 * st.mem (buf + (i : ℤ))
    let b := 2 * st.mem (buf + ((n - i : ℕ) : ℤ))
    let wa := W (2 * i)
    let wb := W (2 * i + 1)
    (st.set (O + ((n - 1 - i : ℕ) : ℤ) * os) (wa * a + wb * b)).set (O + ((i - 1 : ℕ) : ℤ) * os) (wb * a - wa * b)) st
  let i := (n - 1) / 2 + 1
  if i = n - i then st.set (O + ((i - 1 : ℕ) : ℤ) * os) (2 * st.mem (buf + (i : ℤ)) * W (2 * i)) else st

/-- `reodft010e_tw`, lines 293-297 -/
def tw010 : Twiddle.Prog := ⟨[⟨.cos, 0, 1⟩, ⟨.sin, 0, 1⟩], 1⟩

/-- the table requested in `awake`, lines 301-302 -/
def W010 (cexp : ℕ → ℤ → ℝ × ℝ) (n : ℕ) (t : ℕ) : ℝ := (Twiddle.compute cexp tw010 (4 * n) 1 (n / 2 + 1)).getD t 0

/-- one transform: the bodies of `apply_re01`, `apply_re10`, `apply_ro01`, `apply_ro10` -/
noncomputable def body010 (cexp : ℕ → ℤ → ℝ × ℝ) (n : ℕ) (is os : ℤ) (cld : Plan) (kd : RKind) (I O : Ptr) : State → State :=
  withBuf fun buf st =>
    match kd with
    | .REDFT01 => re01Post n os buf O (cld.rdftApply buf buf (re01Pre (W010 cexp n) n is I buf st))
    | .REDFT10 => re10Post (W010 cexp n) n os buf O (cld.rdftApply buf buf (re10Pre n is I buf st))
    | .RODFT01 => ro01Post n os buf O (cld.rdftApply buf buf (ro01Pre (W010 cexp n) n is I buf st))
    | .RODFT10 => ro10Post (W010 cexp n) n os buf O (cld.rdftApply buf buf (ro10Pre n is I buf st))
    | _ => st

/-- `applicable0` 318-329, `mkplan` 336-397, reodft/reodft010e-r2hc.c -/
noncomputable def reodft010 (cexp : ℕ → ℤ → ℝ × ℝ) (taste : Taste) : Solver := rdftSolver fun p fl =>
  match p.sz, p.vecsz with
  | [(d, kd)], some v =>
    match tornk1 v with
    | none => .nada
    | some vd =>
      if (kd = .REDFT01 ∨ kd = .REDFT10 ∨ kd = .RODFT01 ∨ kd = .RODFT10) ∧ taste (.rdft p) fl then
        let buf := planBuf [p.I, p.O]
        .need (mkproblemRdft [(⟨d.n, 1, 1⟩, .R2HC00)] (some []) buf buf) {} fun cld =>
        .ret (some (.rdft (vloop vd (body010 cexp d.n d.is d.os cld kd))))
      else .nada
  | _, _ => .nada

/-! ### reodft/reodft11e-radix2.c -/

/-- reodft/reodft11e-radix2.c:73-118 -/
def re11Pre (W : ℕ → ℝ) (n : ℕ) (is : ℤ) (I buf : Ptr) (st : State) : State :=
  let n2 := n / 2
  let st := st.set buf (2 * st.mem I)
  let st := st.set (buf + (n2 : ℤ)) (2 * st.mem (I + ((n - 1 : ℕ) : ℤ) * is))
  let st := forN ((n2 - 1) / 2) (fun i0 st =>
    let i := i0 + 1
    let k := i + i
    let u := st.mem (I + ((k - 1 : ℕ) : ℤ) * is)
    let v := st.mem (I + (k : ℤ) * is)
    let a := u + v
    let b2 := u - v
    let u := st.mem (I + ((n - k - 1 : ℕ) : ℤ) * is)
    let v := st.mem (I + ((n - k : ℕ) : ℤ) * is)
    let b := u + v
    let a2 := u - v
    let wa := W (2 * i)
    let wb := W (2 * i + 1)
    let st := (st.set (buf + (i : ℤ)) (wa * (a - b) + wb * (a + b))).set (buf + ((n2 - i : ℕ) : ℤ)) (wa * (a + b) - wb * (a - b))
    (st.set (buf + ((n2 + i : ℕ) : ℤ)) (wa * (a2 - b2) + wb * (a2 + b2))).set (buf + ((n - i : ℕ) : ℤ)) (wa * (a2 + b2) - wb * (a2 - b2))) st
  let i := (n2 - 1) / 2 + 1
  if i + i = n2 then
    let u := st.mem (I + ((n2 - 1 : ℕ) : ℤ) * is)
    let v := st.mem (I + (n2 : ℤ) * is)
    (st.set (buf + (i : ℤ)) ((u + v) * (W (2 * i) * 2))).set (buf + ((n - i : ℕ) : ℤ)) ((u - v) * (W (2 * i) * 2))
  else st

/-- reodft/reodft11e-radix2.c:127-180.  `W2` advances by two entries per pair of outputs: the pair `k`, `n-1-k` finds `W2` at `2k`. -/
def re11Post (W2 : ℕ → ℝ) (n : ℕ) (os : ℤ) (buf O : Ptr) (st : State) : State :=
  let n2 := n / 2
  let a := st.mem buf
  let b := st.mem (buf + (n2 : ℤ))
  let st := (st.set O (W2 0 * a + W2 1 * b)).set (O + ((n - 1 : ℕ) : ℤ) * os) (W2 1 * a - W2 0 * b)
  let st := forN ((n2 - 1) / 2) (fun i0 st =>
    let i := i0 + 1
    let u := st.mem (buf + (i : ℤ))
    let v := st.mem (buf + ((n2 - i : ℕ) : ℤ))
    let u2 := st.mem (buf + ((n2 + i : ℕ) : ℤ))
    let v2 := st.mem (buf + ((n - i : ℕ) : ℤ))
    let k := i + i - 1
    let wa := W2 (2 * k)
    let wb := W2 (2 * k + 1)
    let a := u - v
    let b := v2 - u2
    let st := (st.set (O + (k : ℤ) * os) (wa * a + wb * b)).set (O + ((n - 1 - k : ℕ) : ℤ) * os) (wb * a - wa * b)
    let k := k + 1
    let wa := W2 (2 * k)
    let wb := W2 (2 * k + 1)
    let a := u + v
    let b := u2 + v2
    (st.set (O + (k : ℤ) * os) (wa * a + wb * b)).set (O + ((n - 1 - k : ℕ) : ℤ) * os) (wb * a - wa * b)) st
  let i := (n2 - 1) / 2 + 1
  if i + i = n2 then
    let k := i + i - 1
    let wa := W2 (2 * k)
    let wb := W2 (2 * k + 1)
    let a := st.mem (buf + (i : ℤ))
    let b := st.mem (buf + ((n2 + i : ℕ) : ℤ))
    (st.set (O + (k : ℤ) * os) (wa * a - wb * b)).set (O + ((n - 1 - k : ℕ) : ℤ) * os) (wb * a + wa * b)
  else st

/-- reodft/reodft11e-radix2.c:281-326 -/
def ro11Pre (W : ℕ → ℝ) (n : ℕ) (is : ℤ) (I buf : Ptr) (st : State) : State :=
  let n2 := n / 2
  let st := st.set buf (2 * st.mem (I + ((n - 1 : ℕ) : ℤ) * is))
  let st := st.set (buf + (n2 : ℤ)) (2 * st.mem I)
  let st := forN ((n2 - 1) / 2) (fun i0 st =>
    let i := i0 + 1
    let k := i + i
    let u := st.mem (I + ((n - k : ℕ) : ℤ) * is)
    let v := st.mem (I + ((n - 1 - k : ℕ) : ℤ) * is)
    let a := u + v
    let b2 := u - v
    let u := st.mem (I + (k : ℤ) * is)
    let v := st.mem (I + ((k - 1 : ℕ) : ℤ) * is)
    let b := u + v
    let a2 := u - v
    let wa := W (2 * i)
    let wb := W (2 * i + 1)
    let st := (st.set (buf + (i : ℤ)) (wa * (a - b) + wb * (a + b))).set (buf + ((n2 - i : ℕ) : ℤ)) (wa * (a + b) - wb * (a - b))
    (st.set (buf + ((n2 + i : ℕ) : ℤ)) (wa * (a2 - b2) + wb * (a2 + b2))).set (buf + ((n - i : ℕ) : ℤ)) (wa * (a2 + b2) - wb * (a2 - b2))) st
  let i := (n2 - 1) / 2 + 1
  if i + i = n2 then
    let u := st.mem (I + (n2 : ℤ) * is)
    let v := st.mem (I + ((n2 - 1 : ℕ) : ℤ) * is)
    (st.set (buf + (i : ℤ)) ((u + v) * (W (2 * i) * 2))).set (buf + ((n - i : ℕ) : ℤ)) ((u - v) * (W (2 * i) * 2))
  else st

/-- reodft/reodft11e-radix2.c:335-388 -/
def ro11Post (W2 : ℕ → ℝ) (n : ℕ) (os : ℤ) (buf O : Ptr) (st : State) : State :=
  let n2 := n / 2
  let a := st.mem buf
  let b := st.mem (buf + (n2 : ℤ))
  let st := (st.set O (W2 0 * a + W2 1 * b)).set (O + ((n - 1 : ℕ) : ℤ) * os) (W2 0 * b - W2 1 * a)
  let st := forN ((n2 - 1) / 2) (fun i0 st =>
    let i := i0 + 1
    let u := st.mem (buf + (i : ℤ))
    let v := st.mem (buf + ((n2 - i : ℕ) : ℤ))
    let u2 := st.mem (buf + ((n2 + i : ℕ) : ℤ))
    let v2 := st.mem (buf + ((n - i : ℕ) : ℤ))
    let k := i + i - 1
    let wa := W2 (2 * k)
    let wb := W2 (2 * k + 1)
    let a := v - u
    let b := u2 - v2
    let st := (st.set (O + (k : ℤ) * os) (wa * a + wb * b)).set (O + ((n - 1 - k : ℕ) : ℤ) * os) (wa * b - wb * a)
    let k := k + 1
    let wa := W2 (2 * k)
    let wb := W2 (2 * k + 1)
    let a := u + v
    let b := u2 + v2
    (st.set (O + (k : ℤ) * os) (wa * a + wb * b)).set (O + ((n - 1 - k : ℕ) : ℤ) * os) (wa * b - wb * a)) st
  let i := (n2 - 1) / 2 + 1
  if i + i = n2 then
    let k := i + i - 1
    let wa := W2 (2 * k)
    let wb := W2 (2 * k + 1)
    let a := st.mem (buf + (i : ℤ))
    let b := st.mem (buf + ((n2 + i : ℕ) : ℤ))
    (st.set (O + (k : ℤ) * os) (wb * b - wa * a)).set (O + ((n - 1 - k : ℕ) : ℤ) * os) (wa * b + wb * a)
  else st

/-- `td`, reodft/reodft11e-radix2.c:397-401, 410-411 -/
def W11 (cexp : ℕ → ℤ → ℝ × ℝ) (n : ℕ) (t : ℕ) : ℝ := (Twiddle.compute cexp tw010 (2 * n) 1 (n / 4 + 1)).getD t 0

/-- `td2`, reodft/reodft11e-radix2.c:402-406, 412-413 -/
def W112 (cexp : ℕ → ℤ → ℝ × ℝ) (n : ℕ) (t : ℕ) : ℝ := (Twiddle.compute cexp ⟨[⟨.cos, 1, 1⟩, ⟨.sin, 1, 1⟩], 2⟩ (8 * n) 1 n).getD t 0

/-- one transform, `apply_re11` 59-184, `apply_ro11` 267-392 -/
noncomputable def body11 (cexp : ℕ → ℤ → ℝ × ℝ) (n : ℕ) (is os : ℤ) (cld : Plan) (kd : RKind) (I O : Ptr) : State → State :=
  withBuf fun buf st =>
    if kd = .REDFT11 then re11Post (W112 cexp n) n os buf O (cld.rdftApply buf buf (re11Pre (W11 cexp n) n is I buf st))
    else ro11Post (W112 cexp n) n os buf O (cld.rdftApply buf buf (ro11Pre (W11 cexp n) n is I buf st))

/-- `applicable0` 429-440, `mkplan` 447-500, reodft/reodft11e-radix2.c -/
noncomputable def reodft11Radix2 (cexp : ℕ → ℤ → ℝ × ℝ) (taste : Taste) : Solver := rdftSolver fun p fl =>
  match p.sz, p.vecsz with
  | [(d, kd)], some v =>
    match tornk1 v with
    | none => .nada
    | some vd =>
      if (d.n % 2 = 0 ∧ (kd = .REDFT11 ∨ kd = .RODFT11)) ∧ taste (.rdft p) fl then
        let buf := planBuf [p.I, p.O]
        .need (mkproblemRdft [(⟨d.n / 2, 1, 1⟩, .R2HC00)] (some [⟨2, ((d.n / 2 : ℕ) : ℤ), ((d.n / 2 : ℕ) : ℤ)⟩]) buf buf) {} fun cld =>
        .ret (some (.rdft (vloop vd (body11 cexp d.n d.is d.os cld kd))))
      else .nada
  | _, _ => .nada

/-! ### reodft/reodft11e-r2hc-odd.c -/

/-- `SGN_SET(x, i)`, reodft/reodft11e-r2hc-odd.c:63 -/
def sgnSet (x : ℝ) (i : ℕ) : ℝ := if i % 2 ≠ 0 then -x else x

/-- the value of `i` at which `for (; m < K; ++i, m += 4)`, in which always `m = n2 + 4 i`, stops -/
def upto (n2 K : ℕ) : ℕ := (K - n2 + 3) / 4

/-- that loop, from the place where the previous one stopped -/
def walk (a b : ℕ) (f : ℕ → State → State) (st : State) : State := forN (b - a) (fun t st => f (a + t) st) st

/-- reodft/reodft11e-r2hc-odd.c:77-90 -/
def re11oPre (n : ℕ) (is : ℤ) (I buf : Ptr) (st : State) : State :=
  let n2 := n / 2
  let st := walk 0 (upto n2 n) (fun i st => st.set (buf + (i : ℤ)) (st.mem (I + ((n2 + 4 * i : ℕ) : ℤ) * is))) st
  let st := walk (upto n2 n) (upto n2 (2 * n)) (fun i st => st.set (buf + (i : ℤ)) (-st.mem (I + ((2 * n - (n2 + 4 * i) - 1 : ℕ) : ℤ) * is))) st
  let st := walk (upto n2 (2 * n)) (upto n2 (3 * n)) (fun i st => st.set (buf + (i : ℤ)) (-st.mem (I + ((n2 + 4 * i - 2 * n : ℕ) : ℤ) * is))) st
  let st := walk (upto n2 (3 * n)) (upto n2 (4 * n)) (fun i st => st.set (buf + (i : ℤ)) (st.mem (I + ((4 * n - (n2 + 4 * i) - 1 : ℕ) : ℤ) * is))) st
  walk (upto n2 (4 * n)) n (fun i st => st.set (buf + (i : ℤ)) (st.mem (I + ((n2 + 4 * i - 4 * n : ℕ) : ℤ) * is))) st

/-- reodft/reodft11e-r2hc-odd.c:97-126.  `SQRT2` is taken to be exactly `√2`. -/
noncomputable def re11oPost (n : ℕ) (os : ℤ) (buf O : Ptr) (st : State) : State :=
  let n2 := n / 2
  let st := forN (n2 / 2) (fun i st =>
    let k := i + i + 1
    let c1 := st.mem (buf + (k : ℤ))
    let c2 := st.mem (buf + ((k + 1 : ℕ) : ℤ))
    let s2 := st.mem (buf + ((n - (k + 1) : ℕ) : ℤ))
    let s1 := st.mem (buf + ((n - k : ℕ) : ℤ))
    let st := st.set (O + (i : ℤ) * os) (√2 * (sgnSet c1 ((i + 1) / 2) + sgnSet s1 (i / 2)))
    let st := st.set (O + ((n - (i + 1) : ℕ) : ℤ) * os) (√2 * (sgnSet c1 ((n - i) / 2) - sgnSet s1 ((n - (i + 1)) / 2)))
    let st := st.set (O + ((n2 - (i + 1) : ℕ) : ℤ) * os) (√2 * (sgnSet c2 ((n2 - i) / 2) - sgnSet s2 ((n2 - (i + 1)) / 2)))
    st.set (O + ((n2 + (i + 1) : ℕ) : ℤ) * os) (√2 * (sgnSet c2 ((n2 + i + 2) / 2) + sgnSet s2 ((n2 + (i + 1)) / 2)))) st
  let i := n2 / 2
  let st := if i + i + 1 = n2 then
      let c := st.mem (buf + (n2 : ℤ))
      let s := st.mem (buf + ((n - n2 : ℕ) : ℤ))
      let st := st.set (O + (i : ℤ) * os) (√2 * (sgnSet c ((i + 1) / 2) + sgnSet s (i / 2)))
      st.set (O + ((n - (i + 1) : ℕ) : ℤ) * os) (√2 * (sgnSet c ((i + 2) / 2) + sgnSet s ((i + 1) / 2)))
    else st
  st.set (O + (n2 : ℤ) * os) (√2 * sgnSet (st.mem buf) ((n2 + 1) / 2))

/-- reodft/reodft11e-r2hc-odd.c:146-159 -/
def ro11oPre (n : ℕ) (is : ℤ) (I buf : Ptr) (st : State) : State :=
  let n2 := n / 2
  let st := walk 0 (upto n2 n) (fun i st => st.set (buf + (i : ℤ)) (st.mem (I + ((n - 1 - (n2 + 4 * i) : ℕ) : ℤ) * is))) st
  let st := walk (upto n2 n) (upto n2 (2 * n)) (fun i st => st.set (buf + (i : ℤ)) (-st.mem (I + ((n2 + 4 * i - n : ℕ) : ℤ) * is))) st
  let st := walk (upto n2 (2 * n)) (upto n2 (3 * n)) (fun i st => st.set (buf + (i : ℤ)) (-st.mem (I + ((3 * n - 1 - (n2 + 4 * i) : ℕ) : ℤ) * is))) st
  let st := walk (upto n2 (3 * n)) (upto n2 (4 * n)) (fun i st => st.set (buf + (i : ℤ)) (st.mem (I + ((n2 + 4 * i - 3 * n : ℕ) : ℤ) * is))) st
  walk (upto n2 (4 * n)) n (fun i st => st.set (buf + (i : ℤ)) (st.mem (I + ((n - 1 - (n2 + 4 * i - 4 * n) : ℕ) : ℤ) * is))) st

/-- reodft/reodft11e-r2hc-odd.c:166-197 -/
noncomputable def ro11oPost (n : ℕ) (os : ℤ) (buf O : Ptr) (st : State) : State :=
  let n2 := n / 2
  let st := forN (n2 / 2) (fun i st =>
    let k := i + i + 1
    let c1 := st.mem (buf + (k : ℤ))
    let c2 := st.mem (buf + ((k + 1 : ℕ) : ℤ))
    let s2 := st.mem (buf + ((n - (k + 1) : ℕ) : ℤ))
    let s1 := st.mem (buf + ((n - k : ℕ) : ℤ))
    let st := st.set (O + (i : ℤ) * os) (√2 * (sgnSet c1 ((i + 1) / 2 + i) + sgnSet s1 (i / 2 + i)))
    let st := st.set (O + ((n - (i + 1) : ℕ) : ℤ) * os) (√2 * (sgnSet c1 ((n - i) / 2 + i) - sgnSet s1 ((n - (i + 1)) / 2 + i)))
    let j := n2 - (i + 1)
    let st := st.set (O + (j : ℤ) * os) (√2 * (sgnSet c2 ((n2 - i) / 2 + j) - sgnSet s2 ((n2 - (i + 1)) / 2 + j)))
    st.set (O + ((n2 + (i + 1) : ℕ) : ℤ) * os) (√2 * (sgnSet c2 ((n2 + i + 2) / 2 + j) + sgnSet s2 ((n2 + (i + 1)) / 2 + j)))) st
  let i := n2 / 2
  let st := if i + i + 1 = n2 then
      let c := st.mem (buf + (n2 : ℤ))
      let s := st.mem (buf + ((n - n2 : ℕ) : ℤ))
      let st := st.set (O + (i : ℤ) * os) (√2 * (sgnSet c ((i + 1) / 2 + i) + sgnSet s (i / 2 + i)))
      st.set (O + ((n - (i + 1) : ℕ) : ℤ) * os) (√2 * (sgnSet c ((i + 2) / 2 + i) + sgnSet s ((i + 1) / 2 + i)))
    else st
  st.set (O + (n2 : ℤ) * os) (√2 * sgnSet (st.mem buf) ((n2 + 1) / 2 + n2))

/-- one transform, `apply_re11` 65-130, `apply_ro11` 134-201 -/
noncomputable def body11o (n : ℕ) (is os : ℤ) (cld : Plan) (kd : RKind) (I O : Ptr) : State → State :=
  withBuf fun buf st =>
    if kd = .REDFT11 then re11oPost n os buf O (cld.rdftApply buf buf (re11oPre n is I buf st))
    else ro11oPost n os buf O (cld.rdftApply buf buf (ro11oPre n is I buf st))

/-- `applicable0` 222-233, `mkplan` 240-287, reodft/reodft11e-r2hc-odd.c -/
noncomputable def reodft11Odd (taste : Taste) : Solver := rdftSolver fun p fl =>
  match p.sz, p.vecsz with
  | [(d, kd)], some v =>
    match tornk1 v with
    | none => .nada
    | some vd =>
      if (d.n % 2 = 1 ∧ (kd = .REDFT11 ∨ kd = .RODFT11)) ∧ taste (.rdft p) fl then
        let buf := planBuf [p.I, p.O]
        .need (mkproblemRdft [(⟨d.n, 1, 1⟩, .R2HC00)] (some []) buf buf) {} fun cld =>
        .ret (some (.rdft (vloop vd (body11o d.n d.is d.os cld kd))))
      else .nada
  | _, _ => .nada

/-! ### reodft/reodft00e-splitradix.c -/

/-- reodft/reodft00e-splitradix.c:67-70; `n0` is the `n` of `apply_e`.  The first loop stops at `i = 1 + 4 j` with `j = (n0+2)/4`. -/
def splitPreE (n0 : ℕ) (is : ℤ) (I buf : Ptr) (st : State) : State :=
  let j0 := (n0 + 2) / 4
  let st := forN j0 (fun j st => st.set (buf + (j : ℤ)) (st.mem (I + ((1 + 4 * j : ℕ) : ℤ) * is))) st
  let i0 := 2 * n0 - 2 - (1 + 4 * j0)
  forN ((i0 + 3) / 4) (fun t st => st.set (buf + ((j0 + t : ℕ) : ℤ)) (st.mem (I + ((i0 - 4 * t : ℕ) : ℤ) * is))) st

/-- reodft/reodft00e-splitradix.c:84-121, with `FFT_SIGN == -1` (kernel/ifftw.h:92); `W` here is `td->W - 2` -/
def splitPostE (W : ℕ → ℝ) (n2 : ℕ) (os : ℤ) (buf O : Ptr) (st : State) : State :=
  let b20 := st.mem O
  let b0 := 2 * st.mem buf
  let st := (st.set O (b20 + b0)).set (O + ((2 * n2 : ℕ) : ℤ) * os) (b20 - b0)
  let st := forN ((n2 - 1) / 2) (fun i0 st =>
    let i := i0 + 1
    let br := st.mem (buf + (i : ℤ))
    let bi := st.mem (buf + ((n2 - i : ℕ) : ℤ))
    let wr := W (2 * i)
    let wi := W (2 * i + 1)
    let wbr := 2 * (wr * br + wi * bi)
    let wbi := 2 * (wr * bi - wi * br)
    let ap := st.mem (O + (i : ℤ) * os)
    let st := (st.set (O + (i : ℤ) * os) (ap + wbr)).set (O + ((2 * n2 - i : ℕ) : ℤ) * os) (ap - wbr)
    let am := st.mem (O + ((n2 - i : ℕ) : ℤ) * os)
    (st.set (O + ((n2 - i : ℕ) : ℤ) * os) (am - wbi)).set (O + ((n2 + i : ℕ) : ℤ) * os) (am + wbi)) st
  let i := (n2 - 1) / 2 + 1
  if i = n2 - i then
    let wbr := 2 * (W (2 * i) * st.mem (buf + (i : ℤ)))
    let ap := st.mem (O + (i : ℤ) * os)
    (st.set (O + (i : ℤ) * os) (ap + wbr)).set (O + ((2 * n2 - i : ℕ) : ℤ) * os) (ap - wbr)
  else st

/-- reodft/reodft00e-splitradix.c:144-147; the first loop stops at `i = 4 j` with `j = (n0+3)/4` -/
def splitPreO (n0 : ℕ) (is : ℤ) (I buf : Ptr) (st : State) : State :=
  let j0 := (n0 + 3) / 4
  let st := forN j0 (fun j st => st.set (buf + (j : ℤ)) (st.mem (I + ((4 * j : ℕ) : ℤ) * is))) st
  let i0 := 2 * n0 - 4 * j0
  forN ((i0 + 3) / 4) (fun t st => st.set (buf + ((j0 + t : ℕ) : ℤ)) (-st.mem (I + ((i0 - 4 * t : ℕ) : ℤ) * is))) st

/-- reodft/reodft00e-splitradix.c:171-203 -/
def splitPostO (W : ℕ → ℝ) (n2 : ℕ) (os : ℤ) (buf O : Ptr) (st : State) : State :=
  let st := st.set (O + ((n2 - 1 : ℕ) : ℤ) * os) (2 * st.mem buf)
  let st := forN ((n2 - 1) / 2) (fun i0 st =>
    let i := i0 + 1
    let br := st.mem (buf + (i : ℤ))
    let bi := st.mem (buf + ((n2 - i : ℕ) : ℤ))
    let wr := W (2 * i)
    let wi := W (2 * i + 1)
    let wbr := 2 * (wr * br + wi * bi)
    let wbi := 2 * (wi * br - wr * bi)
    let ap := st.mem (O + ((i - 1 : ℕ) : ℤ) * os)
    let st := (st.set (O + ((i - 1 : ℕ) : ℤ) * os) (wbi + ap)).set (O + ((2 * n2 - 1 - i : ℕ) : ℤ) * os) (wbi - ap)
    let am := st.mem (O + ((n2 - 1 - i : ℕ) : ℤ) * os)
    (st.set (O + ((n2 - 1 - i : ℕ) : ℤ) * os) (wbr + am)).set (O + ((n2 - 1 + i : ℕ) : ℤ) * os) (wbr - am)) st
  let i := (n2 - 1) / 2 + 1
  if i = n2 - i then
    let wbi := 2 * (W (2 * i + 1) * st.mem (buf + (i : ℤ)))
    let ap := st.mem (O + ((i - 1 : ℕ) : ℤ) * os)
    (st.set (O + ((i - 1 : ℕ) : ℤ) * os) (wbi + ap)).set (O + ((2 * n2 - 1 - i : ℕ) : ℤ) * os) (wbi - ap)
  else st

/-- `td->W - 2`, reodft/reodft00e-splitradix.c:58, 212-216, 220-221 -/
def Wsplit (cexp : ℕ → ℤ → ℝ × ℝ) (n : ℕ) (t : ℕ) : ℝ := (Twiddle.compute cexp ⟨[⟨.cos, 1, 1⟩, ⟨.sin, 1, 1⟩], 1⟩ (2 * n) 1 (n / 4)).getD (t - 2) 0

/-- one transform of `apply_e` 51-125: `n` is `ego->n` -/
noncomputable def splitE (cexp : ℕ → ℤ → ℝ × ℝ) (n : ℕ) (is os : ℤ) (clde cldo : Plan) (I O : Ptr) : State → State :=
  withBuf fun buf st =>
    splitPostE (Wsplit cexp n) (n / 2) os buf O (clde.rdftApply I O (cldo.rdftApply buf buf (splitPreE (n + 1) is I buf st)))

open Classical in
/-- the even child of `apply_o`, 153-168 -/
noncomputable def splitMidO (n2 : ℕ) (is os : ℤ) (clde : Plan) (I O : Ptr) (st : State) : State :=
  if I = O then
    forN (n2 - 1) (fun i st => st.set (O + (i : ℤ) * os) (st.mem (I + ((i + 1 : ℕ) : ℤ) * is))) (clde.rdftApply (I + is) (I + is) st)
  else clde.rdftApply (I + is) O st

/-- one transform of `apply_o` 128-207: `n` is `ego->n` -/
noncomputable def splitO (cexp : ℕ → ℤ → ℝ × ℝ) (n : ℕ) (is os : ℤ) (clde cldo : Plan) (I O : Ptr) : State → State :=
  withBuf fun buf st =>
    splitPostO (Wsplit cexp n) (n / 2) os buf O (splitMidO (n / 2) is os clde I O (cldo.rdftApply buf buf (splitPreO (n - 1) is I buf st)))

/-- `applicable0` 242-258, `mkplan` 265-341, reodft/reodft00e-splitradix.c -/
noncomputable def reodft00Split (cexp : ℕ → ℤ → ℝ × ℝ) (taste : Taste) : Solver := rdftSolver fun p fl =>
  match p.sz, p.vecsz with
  | [(d, kd)], some v =>
    match tornk1 v with
    | none => .nada
    | some vd =>
      if ((kd = .REDFT00 ∨ kd = .RODFT00) ∧ d.n > 1 ∧ d.n % 2 ≠ 0 ∧ (p.I ≠ p.O ∨ v = [] ∨ vd.is = vd.os)
          ∧ (kd ≠ .RODFT00 ∨ p.I ≠ p.O ∨ d.is ≥ d.os)) ∧ taste (.rdft p) fl then
        let n := if kd = .REDFT00 then d.n - 1 else d.n + 1
        let inplaceOdd : Bool := decide (kd = .RODFT00 ∧ p.I = p.O)
        let buf := planBuf [p.I, p.O]
        .need (mkproblemRdft [(⟨d.n - n / 2, 2 * d.is, if inplaceOdd then d.is else d.os⟩, kd)] (some [])
          (if kd = .RODFT00 then p.I + d.is else p.I) (if inplaceOdd then p.O + d.is else p.O)) {} fun clde =>
        .need (mkproblemRdft [(⟨n / 2, 1, 1⟩, .R2HC00)] (some []) buf buf) {} fun cldo =>
        .ret (some (.rdft (vloop vd (if kd = .REDFT00 then splitE cexp n d.is d.os clde cldo else splitO cexp n d.is d.os clde cldo))))
      else .nada
  | _, _ => .nada

end FFTW.Reodft
