import Verif.Model.DftSolvers
import Verif.Model.Copy

/-!
# rdft/ solvers that rearrange: nop, rank0, vrank-geq1, rank-geq2, indirect; and rdft/dft-r2hc.c

`taste` stands for the tests that only steer the search, as in Model/DftSolvers.
-/

namespace FFTW.RdftS
open Tensor DftS Copy

variable [CLib]

/-- `MKSOLVER` for `PROBLEM_RDFT` -/
def rdftSolver (mk : RdftP → Flags → Mk (Option Plan)) : Solver :=
  ⟨fun p fl => match p with | .rdft p => mk p fl | _ => .nada⟩

/-- rdft/nop.c:26-46, 54-70 -/
def nop : Solver := rdftSolver fun p _ =>
  if p.vecsz = none ∨ (p.sz.length = 0 ∧ ∃ l, p.vecsz = some l ∧ p.O = p.I ∧ inplaceStrides l = true) then
    .ret (some (.rdft fun _ _ st => st))
  else .nada

/-- rdft/vrank-geq1.c, `apply` 54-64, `applicable0` 91-105, `mkplan` 148-191 -/
def vrankGeq1 (vecloopDim : Int) (buddies : List Int) (taste : Taste) : Solver := rdftSolver fun p fl =>
  match p.vecsz with
  | none => .nada
  | some v =>
    if v.length > 0 then
      match pickdim vecloopDim buddies v (decide (p.I ≠ p.O)) with
      | none => .nada
      | some vdim =>
        if taste (.rdft p) fl then
          match v[vdim]? with
          | none => .nada
          | some d =>
            .need (mkproblemRdft p.sz (some (v.eraseIdx vdim)) p.I p.O) {} fun cld =>
              .ret (some (.rdft fun I O st =>
                forN d.n (fun i st => cld.rdftApply (I + (i : ℤ) * d.is) (O + (i : ℤ) * d.os) st) st))
        else .nada
    else .nada

/-- `X(tensor_copy_inplace)` with the kinds kept -/
def inplKinds (k : InplaceKind) (sz : List (Dim × RKind)) : List (Dim × RKind) := sz.map fun e => (e.1.inplace k, e.2)

/-- rdft/rank-geq2.c, `apply` 53-63, `picksplit` 88-97, `applicable0` 99-109, `mkplan` 136-187 -/
def rankGeq2 (spltrnk : Int) (buddies : List Int) (taste : Taste) : Solver := rdftSolver fun p fl =>
  if p.vecsz.isSome ∧ p.sz.length ≥ 2 then
    match pickdim spltrnk buddies (p.sz.map Prod.fst) true with
    | none => .nada
    | some r =>
      if r + 1 < p.sz.length ∧ taste (.rdft p) fl then
        let sz1 := p.sz.take (r + 1)
        let sz2 := p.sz.drop (r + 1)
        let vecszi := copyInplace .OS p.vecsz
        let sz2i := copyInplace .OS (some (sz2.map Prod.fst))
        .need (mkproblemRdft sz2 (append p.vecsz (some (sz1.map Prod.fst))) p.I p.O) {} fun cld1 =>
        .need (mkproblemRdft (inplKinds .OS sz1) (append vecszi sz2i) p.O p.O) {} fun cld2 =>
        .ret (some (.rdft fun I O st => cld2.rdftApply O O (cld1.rdftApply I O st)))
      else .nada
  else .nada

/-- `applicable0`, rdft/indirect.c:131-163 (`after`: `adt_after`) -/
def indirectApplicable (after : Bool) (p : RdftP) (v : List Dim) (nd : Bool) : Bool :=
  decide (p.sz.length > 0) &&
  ((decide (p.I = p.O) && !(inplaceStrides2 (p.sz.map Prod.fst) v))
   || (decide (p.I ≠ p.O) && after && !nd && decide (minIstride (p.sz.map Prod.fst) ≤ 2) && decide (minOstride (p.sz.map Prod.fst) > 2))
   || (decide (p.I ≠ p.O) && !after && decide (minOstride (p.sz.map Prod.fst) ≤ 2) && decide (minIstride (p.sz.map Prod.fst) > 2)))

/-- rdft/indirect.c, `apply_before`/`apply_after` 55-67, 84-96, `mkcld_*` 69-74, 98-103, `mkplan` 178-214 -/
def indirect (after : Bool) (taste : Taste) : Solver := rdftSolver fun p fl =>
  match p.vecsz with
  | none => .nada
  | some v =>
    if indirectApplicable after p v fl.nd ∧ taste (.rdft p) fl then
      .need (mkproblemRdft [] (append p.vecsz (some (p.sz.map Prod.fst))) p.I p.O) {} fun cldcpy =>
      if after then
        .need (mkproblemRdft (inplKinds .IS p.sz) (copyInplace .IS p.vecsz) p.I p.I) { lset := NO_BUFFERING } fun cld =>
        .ret (some (.rdft fun I O st => cldcpy.rdftApply I O (cld.rdftApply I I st)))
      else
        .need (mkproblemRdft (inplKinds .OS p.sz) (copyInplace .OS p.vecsz) p.O p.O) { lset := NO_BUFFERING } fun cld =>
        .ret (some (.rdft fun I O st => cld.rdftApply O O (cldcpy.rdftApply I O st)))
    else .nada

/-! ### rdft/rank0.c -/

/-- `MAXRNK`, rdft/rank0.c:30 -/
def MAXRNK : ℕ := 32

/-- `fill_iodim`, rdft/rank0.c:49-68: the arguments are `pln->vl` and the dimensions stored so far -/
def fillIodim (vl : ℕ) (acc : List Dim) : List Dim → Option (ℕ × List Dim)
  | [] => some (vl, acc)
  | d :: l =>
    if vl = 1 ∧ d.is = 1 ∧ d.os = 1 then fillIodim d.n acc l
    else if acc.length = MAXRNK then none
    else fillIodim vl (acc ++ [d]) l

/-- `copy`, rdft/rank0.c:71-84; called for rank at least 2 only -/
def copyR (cpy2d : Ptr → Ptr → ℕ → ℤ → ℤ → ℕ → ℤ → ℤ → ℕ → State → State) (vl : ℕ) : List Dim → Ptr → Ptr → State → State
  | [a, b], I, O, st => cpy2d I O a.n a.is a.os b.n b.is b.os vl st
  | d :: rest, I, O, st => forN d.n (fun i st => copyR cpy2d vl rest (I + (i : ℤ) * d.is) (O + (i : ℤ) * d.os) st) st
  | [], _, _, st => st

/-- `transposep`, rdft/rank0.c:87-98; called for rank at least 2 only -/
def transposep : List Dim → Bool
  | [a, b] => decide (a.n = b.n) && decide (a.is = b.os) && decide (a.os = b.is)
  | d :: rest => decide (d.is = d.os) && transposep rest
  | [] => false

/-- `transpose`, rdft/rank0.c:102-115; called for rank at least 2 only -/
def transposeR (tr : Ptr → ℕ → ℤ → ℤ → ℕ → State → State) (vl : ℕ) : List Dim → Ptr → State → State
  | [a, _], I, st => tr I a.n a.is a.os vl st
  | d :: rest, I, st => forN d.n (fun i st => transposeR tr vl rest (I + (i : ℤ) * d.is) st) st
  | [], _, st => st

/-- `memcpy(O, I, n * sizeof(R))`: all is read, then all is written (C does not define overlapping `memcpy`; the callers' arrays are disjoint) -/
def memcpy (n : ℕ) (I O : Ptr) (st : State) : State := forN n (fun i s => s.set (O + (i : ℤ)) (st.mem (I + (i : ℤ)))) st

/-- `memcpy_loop`, rdft/rank0.c:209-221 -/
def memcpyLoop (vl : ℕ) : List Dim → Ptr → Ptr → State → State
  | [], _, _, st => st
  | [d], I, O, st => forN d.n (fun i st => memcpy vl (I + (i : ℤ) * d.is) (O + (i : ℤ) * d.os) st) st
  | d :: rest, I, O, st => forN d.n (fun i st => memcpyLoop vl rest (I + (i : ℤ) * d.is) (O + (i : ℤ) * d.os) st) st

/-- the table of algorithms, rdft/rank0.c:341-367 -/
inductive Rank0
  | memcpy | memcpyLoop | iterCi | iterCo | tiled | tiledbuf | ipSq | ipSqTiled | ipSqTiledbuf

/-- a tiled routine run with tile size `t`; size 0 is excluded by `applicable_tiled` and its like -/
def withTile (t : Option ℤ) (f : (t : ℕ) → 0 < t → State → State) (st : State) : State :=
  match t with
  | some z => if h : 0 < z.toNat then f z.toNat h st else st
  | none => st

/-- `X(cpy2d_tiled)` with `compute_tilesz(vl, 2)`, kernel/cpy2d.c:176 -/
def cpy2dTiledSz (szR : ℕ) (I O : Ptr) (n0 : ℕ) (is0 os0 : ℤ) (n1 : ℕ) (is1 os1 : ℤ) (vl : ℕ) : State → State :=
  withTile (computeTilesz szR vl 2) fun t h => cpy2dTiled t h I O n0 is0 os0 n1 is1 os1 vl
/-- `X(cpy2d_tiledbuf)` with `compute_tilesz(vl, 2)`, kernel/cpy2d.c:199 -/
def cpy2dTiledbufSz (szR : ℕ) (I O : Ptr) (n0 : ℕ) (is0 os0 : ℤ) (n1 : ℕ) (is1 os1 : ℤ) (vl : ℕ) : State → State :=
  withTile (computeTilesz szR vl 2) fun t h => cpy2dTiledbuf t h I O n0 is0 os0 n1 is1 os1 vl
/-- `X(transpose_tiled)` with `compute_tilesz(vl, 2)`, kernel/transpose.c:168 -/
def transposeTiledSz (szR : ℕ) (I : Ptr) (n : ℕ) (s0 s1 : ℤ) (vl : ℕ) : State → State :=
  withTile (computeTilesz szR vl 2) fun t h => transposeTiled t h I n s0 s1 vl
/-- `X(transpose_tiledbuf)` with `compute_tilesz(vl, 2)`, kernel/transpose.c:184 -/
def transposeTiledbufSz (szR : ℕ) (I : Ptr) (n : ℕ) (s0 s1 : ℤ) (vl : ℕ) : State → State :=
  withTile (computeTilesz szR vl 2) fun t h => transposeTiledbuf t h I n s0 s1 vl

/-- the `apply_*` functions, rdft/rank0.c:119-273; `vl` and `d` as filled in by `fill_iodim` -/
def Rank0.apply (szR : ℕ) (vl : ℕ) (d : List Dim) : Rank0 → Ptr → Ptr → State → State
  | .memcpy, I, O, st => RdftS.memcpy vl I O st
  | .memcpyLoop, I, O, st => RdftS.memcpyLoop vl d I O st
  | .iterCi, I, O, st =>
    match d with
    | [] => cpy1d I O vl 1 1 1 st
    | [a] => cpy1d I O a.n a.is a.os vl st
    | d => copyR cpy2dCi vl d I O st
  | .iterCo, I, O, st => copyR cpy2dCo vl d I O st
  | .tiled, I, O, st => copyR (cpy2dTiledSz szR) vl d I O st
  | .tiledbuf, I, O, st => copyR (cpy2dTiledbufSz szR) vl d I O st
  | .ipSq, I, _, st => transposeR Copy.transpose vl d I st
  | .ipSqTiled, I, _, st => transposeR (transposeTiledSz szR) vl d I st
  | .ipSqTiledbuf, I, _, st => transposeR (transposeTiledbufSz szR) vl d I st

/-- `x > 4` for a `compute_tilesz` -/
def gt4 : Option ℤ → Bool
  | some z => decide (z > 4)
  | none => false

/-- `applicable_cpy2dco`, rdft/rank0.c:156-159: the last two dimensions -/
def coOrder : List Dim → Bool
  | [a, b] => decide (|a.is| ≤ |b.is|) || decide (|a.os| ≤ |b.os|)
  | _ :: rest => coOrder rest
  | [] => false

/-- the `applicable_*` functions, rdft/rank0.c:139-279 -/
def Rank0.applicable (szR : ℕ) (vl : ℕ) (d : List Dim) (p : RdftP) : Rank0 → Bool
  | .memcpy => decide (p.I ≠ p.O) && decide (d.length = 0) && decide (vl > 2)
  | .memcpyLoop => decide (p.I ≠ p.O) && decide (d.length > 0) && decide (vl > 2)
  | .iterCi => decide (p.I ≠ p.O)
  | .iterCo => decide (p.I ≠ p.O) && decide (d.length ≥ 2) && coOrder d
  | .tiled | .tiledbuf => decide (p.I ≠ p.O) && decide (d.length ≥ 2) && gt4 (computeTilesz szR vl 1)
  | .ipSq => decide (p.I = p.O) && decide (d.length ≥ 2) && transposep d
  | .ipSqTiled | .ipSqTiledbuf => decide (p.I = p.O) && decide (d.length ≥ 2) && transposep d && gt4 (computeTilesz szR vl 2)

/-- `applicable` and `mkplan`, rdft/rank0.c:282-334; `szR` is `sizeof(R)` -/
def rank0 (szR : ℕ) (alg : Rank0) : Solver := rdftSolver fun p _ =>
  match p.sz, p.vecsz with
  | [], some v =>
    match fillIodim 1 [] v with
    | some (vl, d) => if alg.applicable szR vl d p then .ret (some (.rdft (alg.apply szR vl d))) else .nada
    | none => .nada
  | _, _ => .nada

/-! ### rdft/dft-r2hc.c -/

/-- one dimension made to have a nonnegative input stride, rdft/dft-r2hc.c:147-151 -/
def flipDim (d : Dim) : Dim := if d.is < 0 then ⟨d.n, -d.is, -d.os⟩ else d
/-- `(ishift, oshift)`, rdft/dft-r2hc.c:146-152 -/
def flipShift : List Dim → ℤ × ℤ
  | [] => (0, 0)
  | d :: l =>
    let r := flipShift l
    if d.is < 0 then (r.1 + ((d.n : ℤ) - 1) * d.is, r.2 + ((d.n : ℤ) - 1) * d.os) else r

/-- the combining loop of `apply`, rdft/dft-r2hc.c:53-69 -/
def r2hcCombine (n : ℕ) (os : ℤ) (ro io : Ptr) (st : State) : State :=
  forN ((n + 1) / 2 - 1) (fun t st =>
    let i := t + 1
    let rop := st.mem (ro + os * (i : ℤ))
    let iop := st.mem (io + os * (i : ℤ))
    let rom := st.mem (ro + os * ((n - i : ℕ) : ℤ))
    let iom := st.mem (io + os * ((n - i : ℕ) : ℤ))
    (((st.set (ro + os * (i : ℤ)) (rop - iom)).set (io + os * (i : ℤ)) (iop + rom)).set
      (ro + os * ((n - i : ℕ) : ℤ)) (rop + iom)).set (io + os * ((n - i : ℕ) : ℤ)) (iop - rom)) st

/-- rdft/dft-r2hc.c, `apply` 43-70, `applicable0` 92-98, `mkplan` 124-185; the split-array test and `NO_DFT_R2HCP` (105-121) are
part of `taste` -/
def dftR2hc (taste : Taste) : Solver := dftSolver fun p fl =>
  match p.vecsz with
  | none => .nada
  | some v =>
    if ((p.sz.length = 1 ∧ v.length = 0) ∨ p.sz.length = 0) ∧ taste (.dft p) fl then
      let cldVec : List Dim := ⟨2, p.ii - p.ri, p.io - p.ro⟩ :: v
      let sh := flipShift cldVec
      .need (mkproblemRdft (p.sz.map fun d => (d, RKind.R2HC00)) (some (cldVec.map flipDim)) (p.ri + sh.1) (p.ro + sh.2)) {} fun cld =>
      let n := match p.sz with | d :: _ => d.n | [] => 1
      let os := match p.sz with | d :: _ => d.os | [] => 0
      .ret (some (.dft fun ri _ ro io st => r2hcCombine n os ro io (cld.rdftApply (ri + sh.1) (ro + sh.2) st)))
    else .nada

end FFTW.RdftS
