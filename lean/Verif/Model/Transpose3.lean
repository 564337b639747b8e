import Verif.Model.RdftSolvers
import Verif.Model.Buffered

/-!
# rdft/vrank3-transpose.c: in-place transposition of non-square matrices of tuples

Sizes are natural numbers of unbounded size.  `taste` stands for the tests of planner flags (`NO_SLOWP`, `NO_UGLYP`, `CONSERVE_MEMORYP`) and of the
buffer size, which only steer the search.  A buffer is a fresh block of unbounded size.
-/

namespace FFTW.RdftS
open Tensor DftS

/-- `gcd`, rdft/vrank3-transpose.c:60-70 (a do-while loop; `b = 0` would divide by zero and does not occur) -/
def gcdC (a b : ℕ) : ℕ :=
  if h : b = 0 then 0
  else if h2 : a % b = 0 then b
  else gcdC b (a % b)
termination_by b
decreasing_by exact Nat.mod_lt _ (Nat.pos_of_ne_zero h)

/-- `Ntuple_transposable`, rdft/vrank3-transpose.c:74-80 -/
def ntupleTransposable (a b : Dim) (vl : ℕ) (vs : ℤ) : Bool :=
  decide (vs = 1) && decide (b.is = vl) && decide (a.os = vl) &&
    ((decide (a.n = b.n) && decide (a.is = b.os) && decide (a.is ≥ b.n) && decide (a.is % vl = 0))
     || (decide (a.is = (b.n : ℤ) * vl) && decide (b.os = (a.n : ℤ) * vl)))

/-- `transposable`, rdft/vrank3-transpose.c:84-88 -/
def transposable (a b : Dim) (vl : ℕ) (vs : ℤ) : Bool :=
  (decide (a.n = b.n) && decide (a.os = b.is) && decide (a.is = b.os)) || ntupleTransposable a b vl vs

/-- the triples `(dim0, dim1, dim2)` in the order of the loops of `pickdim`, rdft/vrank3-transpose.c:94-97; for rank 2 there is no third dimension -/
def dimOrders : List Dim → List (Dim × Dim × Option Dim)
  | [x, y] => [(x, y, none), (y, x, none)]
  | [x, y, z] => [(x, y, some z), (x, z, some y), (y, x, some z), (y, z, some x), (z, x, some y), (z, y, some x)]
  | _ => []

/-- `vl` of `get_transpose_vec`, rdft/vrank3-transpose.c:148-157 -/
def vecLen : Option Dim → ℕ
  | none => 1
  | some c => c.n
/-- `vs` of `get_transpose_vec` -/
def vecStr : Option Dim → ℤ
  | none => 1
  | some c => c.is
/-- `s->dims[dim2].is == s->dims[dim2].os`, rdft/vrank3-transpose.c:98 -/
def sameStr : Option Dim → Bool
  | none => true
  | some c => decide (c.is = c.os)

/-- `pickdim`, rdft/vrank3-transpose.c:90-109 -/
def pickdim3 (v : List Dim) : Option (Dim × Dim × Option Dim) :=
  (dimOrders v).find? fun t => sameStr t.2.2 && transposable t.1 t.2.1 (vecLen t.2.2) (vecStr t.2.2)

/-- a plan that is not there: `cld` is 0 and is not used -/
def noPlan : Plan := .rdft fun _ _ st => st

/-- `if (b) { cld = X(mkplan_d)(plnr, p); if (!cld) goto nada; }` -/
def Mk.needIf [CLib] {α : Type} (b : Prop) [Decidable b] (p : Problem) (k : Plan → Mk (Option α)) : Mk (Option α) :=
  if b then .need p {} k else k noPlan

/-! ### transposition by blocks: gcd -/

/-- `for (i = 0; i < d; ++i) { cldapply(cld, I + i*num_el, buf); memcpy(I + i*num_el, buf, num_el*sizeof(R)); }`, rdft/vrank3-transpose.c:199-203 and 217-221 -/
def blockLoop (d numEl : ℕ) (cld : Plan) (buf I : Ptr) (st : State) : State :=
  forN d (fun i st =>
    let p := I + (i : ℤ) * (numEl : ℤ)
    memcpy numEl buf p (cld.rdftApply p buf st)) st

/-- `apply_gcd`, rdft/vrank3-transpose.c:173-225; here `n`, `m` are `ego->nd`, `ego->md` -/
def applyGcd (n m d vl : ℕ) (cld1 cld2 cld3 : Plan) (I _O : Ptr) : State → State :=
  withBuf fun buf st =>
    let numEl := n * m * d * vl
    let st := if n > 1 then blockLoop d numEl cld1 buf I st else st
    let st := cld2.rdftApply I I st
    if m > 1 then blockLoop d numEl cld3 buf I st else st

/-- `mkcldrn_gcd`, rdft/vrank3-transpose.c:244-294 -/
def mkGcd [CLib] (n m d vl : ℕ) (I : Ptr) : Mk (Option Plan) :=
  let buf := planBuf [I]
  let t : ℕ → ℤ := fun x => x
  Mk.needIf (n > 1) (mkproblemRdft [] (some [⟨n, t (d * m * vl), t (m * vl)⟩, ⟨d, t (m * vl), t (n * m * vl)⟩, ⟨m * vl, 1, 1⟩]) I buf) fun cld1 =>
  .need (mkproblemRdft [] (some [⟨d, t (d * n * m * vl), t (n * m * vl)⟩, ⟨d, t (n * m * vl), t (d * n * m * vl)⟩, ⟨n * m * vl, 1, 1⟩]) I I) {} fun cld2 =>
  Mk.needIf (m > 1) (mkproblemRdft [] (some [⟨d * n, t (m * vl), t vl⟩, ⟨m, t vl, t (d * n * vl)⟩, ⟨vl, 1, 1⟩]) I buf) fun cld3 =>
  .ret (some (.rdft (applyGcd n m d vl cld1 cld2 cld3)))

/-! ### transposition of a sub-matrix: cut -/

/-- `MINBUFDIV`, rdft/vrank3-transpose.c:111 -/
def MINBUFDIV : ℕ := 9
/-- `MAXBUF`, rdft/vrank3-transpose.c:112 -/
def MAXBUF : ℕ := 65536
/-- `CUT_NSRCH`, rdft/vrank3-transpose.c:367 -/
def CUT_NSRCH : ℕ := 32

/-- `X(iabs)(n - m)` -/
def absDiff (n m : ℕ) : ℕ := (n - m) + (m - n)

/-- `cut1`, rdft/vrank3-transpose.c:361-365 -/
def cut1 (n m vl : ℕ) : Bool :=
  decide (max n m ≥ absDiff n m * MINBUFDIV) || decide (min n m * absDiff n m * vl ≤ MAXBUF)

/-- the inner loop of the search, rdft/vrank3-transpose.c:409-416, from `ns` downwards; the state is `(dc, nc, mc)` -/
def cutNs (n ms : ℕ) : ℕ → ℕ × ℕ × ℕ → ℕ × ℕ × ℕ
  | 0, s => s
  | ns + 1, s =>
    if ns + 1 + CUT_NSRCH > n then
      let ds := gcdC ms (ns + 1)
      if ds > s.1 then
        if ds = min (ns + 1) ms then (ds, ns + 1, ms) else cutNs n ms ns (ds, ns + 1, ms)
      else cutNs n ms ns s
    else s

/-- the outer loop of the search, rdft/vrank3-transpose.c:408-419, from `ms` downwards -/
def cutMs (n m : ℕ) : ℕ → ℕ × ℕ × ℕ → ℕ × ℕ × ℕ
  | 0, s => s
  | ms + 1, s =>
    if ms + 1 + CUT_NSRCH > m then
      let s := cutNs n (ms + 1) n s
      if s.1 = min n (ms + 1) then s else cutMs n m ms s
    else s

/-- the size `(nc, mc)` of the sub-matrix, rdft/vrank3-transpose.c:400-422 -/
def cutSize (n m vl : ℕ) : ℕ × ℕ :=
  if cut1 n m vl then (min n m, min n m) else (cutMs n m m (gcdC m n, n, m)).2

/-- `apply_cut`, rdft/vrank3-transpose.c:324-358 (`memmove` is `memcpy` of the model: all is read before anything is written) -/
def applyCut (n m nc mc vl : ℕ) (cld1 cld2 cld3 : Plan) (I _O : Ptr) : State → State :=
  withBuf fun buf1 st =>
    let t : ℕ → ℤ := fun x => x
    let st := if m > mc then
        forN nc (fun i => memcpy (mc * vl) (I + t (m * vl * i)) (I + t (mc * vl * i))) (cld1.rdftApply (I + t (mc * vl)) buf1 st)
      else st
    let st := cld2.rdftApply I I st
    let st := if n > nc then
        let buf2 := buf1 + t ((m - mc) * (nc * vl))
        let st := memcpy ((n - nc) * (m * vl)) (I + t (nc * (m * vl))) buf2 st
        let st := forN mc (fun i0 => let i := mc - 1 - i0; memcpy (n * vl) (I + t (nc * vl * i)) (I + t (n * vl * i))) st
        cld3.rdftApply buf2 (I + t (nc * vl)) st
      else st
    if m > mc then
      if n > nc then
        forN (m - mc) (fun i0 => memcpy (nc * vl) (buf1 + t (i0 * (nc * vl))) (I + t ((mc + i0) * (n * vl)))) st
      else memcpy ((m - mc) * (n * vl)) buf1 (I + t (mc * (n * vl))) st
    else st

/-- `mkcldrn_cut`, rdft/vrank3-transpose.c:393-472 -/
def mkCut [CLib] (n m vl : ℕ) (I : Ptr) : Mk (Option Plan) :=
  let nc := (cutSize n m vl).1
  let mc := (cutSize n m vl).2
  let buf := planBuf [I]
  let t : ℕ → ℤ := fun x => x
  Mk.needIf (m > mc) (mkproblemRdft [] (some [⟨nc, t (m * vl), t vl⟩, ⟨m - mc, t vl, t (nc * vl)⟩, ⟨vl, 1, 1⟩]) (I + t (mc * vl)) buf) fun cld1 =>
  .need (mkproblemRdft [] (some [⟨nc, t (mc * vl), t vl⟩, ⟨mc, t vl, t (nc * vl)⟩, ⟨vl, 1, 1⟩]) I I) {} fun cld2 =>
  Mk.needIf (n > nc) (mkproblemRdft [] (some [⟨n - nc, t (m * vl), t vl⟩, ⟨m, t vl, t (n * vl)⟩, ⟨vl, 1, 1⟩])
    (buf + t ((m - mc) * (nc * vl))) (I + t (nc * vl))) fun cld3 =>
  .ret (some (.rdft (applyCut n m nc mc vl cld1 cld2 cld3)))

/-! ### transposition along the cycles: TOMS algorithm 513 -/

/-- `ny * i1 - k * (i1 / nx)` with `k = ny * nx - 1`, rdft/vrank3-transpose.c:573; never negative -/
def succT (nx ny i1 : ℕ) : ℕ := ny * i1 - (ny * nx - 1) * (i1 / nx)

/-- store the tuple `b` at `p` -/
def putTuple (N : ℕ) (p : Ptr) (b : ℕ → ℝ) (st : State) : State := forN N (fun v st => st.set (p + (v : ℤ)) (b v)) st

/-- `p + N * i` -/
def tupAt (a : Ptr) (N i : ℕ) : Ptr := a + ((N * i : ℕ) : ℤ)

/-- `if (i < move_size) move[i] = 1` -/
def mark (sz i : ℕ) (move : ℕ → Bool) : ℕ → Bool := if i < sz then Function.update move i true else move

/-- what the loop along a cycle leaves: `i1`, `i1c`, `move`, `ncount`, whether `b` and `c` are swapped, and the memory -/
structure CycleEnd where
  i1 : ℕ
  i1c : ℕ
  move : ℕ → Bool
  ncount : ℕ
  swapped : Bool
  st : State

/-- the loop along a cycle, rdft/vrank3-transpose.c:572-608; the three cases of `switch (N)` do the same -/
def cycle (a : Ptr) (nx ny N sz i i1 i1c : ℕ) (move : ℕ → Bool) (ncount : ℕ) (st : State) : Option CycleEnd :=
  let k := ny * nx - 1
  let i2 := succT nx ny i1
  let i2c := k - i2
  let move := mark sz i1c (mark sz i1 move)
  let ncount := ncount + 2
  if i2 = i then some ⟨i1, i1c, move, ncount, false, st⟩
  else if i2 = k - i then some ⟨i1, i1c, move, ncount, true, st⟩
  else
    let st := memcpy N (tupAt a N i2) (tupAt a N i1) st
    let st := memcpy N (tupAt a N i2c) (tupAt a N i1c) st
    cycle a nx ny N sz i i2 i2c move ncount st
partial_fixpoint

/-- `while (i2 > i && i2 < max) { i1 = i2; i2 = ny * i1 - k * (i1 / nx); }`, rdft/vrank3-transpose.c:637-640 -/
def walk (nx ny i max i2 : ℕ) : Option ℕ :=
  if i2 > i ∧ i2 < max then walk nx ny i max (succT nx ny i2) else some i2
partial_fixpoint

/-- the search for the next cycle, rdft/vrank3-transpose.c:626-645: the new `i` and `im` -/
def search (nx ny sz : ℕ) (move : ℕ → Bool) (i im : ℕ) : Option (ℕ × ℕ) :=
  let k := ny * nx - 1
  let max := k - i
  let i := i + 1
  let im := if im + ny > k then im + ny - k else im + ny
  if i = im then search nx ny sz move i im
  else if i ≥ sz then do
    let i2 ← walk nx ny i max im
    if i2 = i then some (i, im) else search nx ny sz move i im
  else if !(move i) then some (i, im)
  else search nx ny sz move i im
partial_fixpoint

/-- the outer loop, rdft/vrank3-transpose.c:547-646 -/
def tomsLoop (a : Ptr) (nx ny N sz : ℕ) (i im : ℕ) (move : ℕ → Bool) (ncount : ℕ) (st : State) : Option State := do
  let k := ny * nx - 1
  let b := fun v : ℕ => st.mem (tupAt a N i + (v : ℤ))
  let c := fun v : ℕ => st.mem (tupAt a N (k - i) + (v : ℤ))
  let e ← cycle a nx ny N sz i i (k - i) move ncount st
  let st := putTuple N (tupAt a N e.i1) (if e.swapped then c else b) e.st
  let st := putTuple N (tupAt a N e.i1c) (if e.swapped then b else c) st
  if e.ncount ≥ ny * nx then some st
  else
    let s ← search nx ny sz e.move i im
    tomsLoop a nx ny N sz s.1 s.2 e.move e.ncount st
partial_fixpoint

/-- `transpose_toms513`, rdft/vrank3-transpose.c:516-647; `b`, `c` and `move` are local arrays; no value if it does not terminate -/
def toms513 (a : Ptr) (nx ny N sz : ℕ) (st : State) : Option State :=
  tomsLoop a nx ny N sz 1 ny (fun _ => false) (if ny ≥ 3 ∧ nx ≥ 3 then 2 + (gcdC (ny - 1) (nx - 1) - 1) else 2) st

/-- `apply_toms513`, rdft/vrank3-transpose.c:649-658 (a proof shows that there always is a value) -/
def applyToms (n m vl : ℕ) (I _O : Ptr) (st : State) : State := (toms513 I n m vl ((n + m) / 2) st).getD st

/-! ### the solvers -/

/-- the three transposition algorithms, rdft/vrank3-transpose.c:296, 474, 685 -/
inductive Tr3 | gcd | cut | toms513

/-- `applicable_gcd`, `applicable_cut`, `applicable_toms513`, rdft/vrank3-transpose.c:227-242, 369-391, 660-675 (flags are part of `taste`) -/
def Tr3.applicable (a b : Dim) (vl : ℕ) (vs : ℤ) : Tr3 → Bool
  | .gcd => decide (a.n ≠ b.n) && decide (gcdC a.n b.n > 1) && ntupleTransposable a b vl vs
  | .cut => decide (a.n ≠ b.n) && (cut1 a.n b.n vl || decide (gcdC a.n b.n < min MINBUFDIV (min a.n b.n))) && ntupleTransposable a b vl vs
  | .toms513 => decide (a.n ≠ b.n) && ntupleTransposable a b vl vs

/-- `mkcldrn` and `apply` -/
def Tr3.mk [CLib] (n m vl : ℕ) (I : Ptr) : Tr3 → Mk (Option Plan)
  | .gcd => mkGcd (n / gcdC n m) (m / gcdC n m) (gcdC n m) vl I
  | .cut => mkCut n m vl I
  | .toms513 => .ret (some (.rdft (applyToms n m vl)))

/-- `applicable`, `mkplan`, rdft/vrank3-transpose.c:115-146, 722-758 -/
def vrank3Transpose [CLib] (alg : Tr3) (taste : Taste) : Solver := rdftSolver fun p fl =>
  match p.vecsz with
  | none => .nada
  | some v =>
    if p.I = p.O ∧ p.sz.length = 0 ∧ taste (.rdft p) fl then
      match pickdim3 v with
      | none => .nada
      | some t =>
        if alg.applicable t.1 t.2.1 (vecLen t.2.2) (vecStr t.2.2) then alg.mk t.1.n t.2.1.n (vecLen t.2.2) p.I
        else .nada
    else .nada

end FFTW.RdftS
