import Verif.Model.Mem
import Verif.Model.Primes

/-!
# kernel/cpy1d.c, cpy2d.c, cpy2d-pair.c, tile2d.c, transpose.c

The copies of two `R`s at a time through `WIDE_TYPE` or `double` (kernel/cpy2d.c:52-82) are the same two assignments of
`R`s.  `szR` is `sizeof(R)`; local arrays (`R buf[...]`) are fresh blocks.
-/

namespace FFTW.Copy

/-- `O[0] = I[0]` -/
def move1 (I O : Ptr) (st : State) : State := st.set O (st.mem I)
/-- `x0 = I[0]; x1 = I[1]; O[0] = x0; O[1] = x1` -/
def move2 (I O : Ptr) (st : State) : State :=
  let x0 := st.mem I
  let x1 := st.mem (I + (1 : ℤ))
  (st.set O x0).set (O + (1 : ℤ)) x1
/-- the same with four elements -/
def move4 (I O : Ptr) (st : State) : State :=
  let x0 := st.mem I
  let x1 := st.mem (I + (1 : ℤ))
  let x2 := st.mem (I + (2 : ℤ))
  let x3 := st.mem (I + (3 : ℤ))
  (((st.set O x0).set (O + (1 : ℤ)) x1).set (O + (2 : ℤ)) x2).set (O + (3 : ℤ)) x3

/-- `case 4` of `X(cpy1d)`, kernel/cpy1d.c:53-64 -/
def cpy1d4 (I O : Ptr) (n0 : ℕ) (is0 os0 : ℤ) (st : State) : State :=
  forN n0 (fun i st => move4 (I + (i : ℤ) * is0) (O + (i : ℤ) * os0) st) st
/-- `case 2` of `X(cpy1d)`, kernel/cpy1d.c:40-52 -/
def cpy1d2 (I O : Ptr) (n0 : ℕ) (is0 os0 : ℤ) (st : State) : State :=
  if n0 % 2 = 1 ∨ is0 ≠ 2 ∨ os0 ≠ 2 then forN n0 (fun i st => move2 (I + (i : ℤ) * is0) (O + (i : ℤ) * os0) st) st
  else cpy1d4 I O (n0 / 2) 4 4 st
/-- `X(cpy1d)`, kernel/cpy1d.c:24-72 -/
def cpy1d (I O : Ptr) (n0 : ℕ) (is0 os0 : ℤ) (vl : ℕ) (st : State) : State :=
  if vl = 1 then
    if n0 % 2 = 1 ∨ is0 ≠ 1 ∨ os0 ≠ 1 then forN n0 (fun i st => move1 (I + (i : ℤ) * is0) (O + (i : ℤ) * os0) st) st
    else cpy1d2 I O (n0 / 2) 2 2 st
  else if vl = 2 then cpy1d2 I O n0 is0 os0 st
  else if vl = 4 then cpy1d4 I O n0 is0 os0 st
  else forN n0 (fun i0 st => forN vl (fun v st => move1 (I + ((i0 : ℤ) * is0 + (v : ℤ))) (O + ((i0 : ℤ) * os0 + (v : ℤ))) st) st) st

/-- `X(cpy2d)`, kernel/cpy2d.c:36-104 -/
def cpy2d (I O : Ptr) (n0 : ℕ) (is0 os0 : ℤ) (n1 : ℕ) (is1 os1 : ℤ) (vl : ℕ) (st : State) : State :=
  forN n1 (fun i1 st => forN n0 (fun i0 st =>
    let i := I + ((i0 : ℤ) * is0 + (i1 : ℤ) * is1)
    let o := O + ((i0 : ℤ) * os0 + (i1 : ℤ) * os1)
    if vl = 1 then move1 i o st
    else if vl = 2 then move2 i o st
    else forN vl (fun v st => move1 (i + (v : ℤ)) (o + (v : ℤ)) st) st) st) st

/-- `X(cpy2d_ci)`, kernel/cpy2d.c:107-116 -/
def cpy2dCi (I O : Ptr) (n0 : ℕ) (is0 os0 : ℤ) (n1 : ℕ) (is1 os1 : ℤ) (vl : ℕ) : State → State :=
  if |is0| < |is1| then cpy2d I O n0 is0 os0 n1 is1 os1 vl else cpy2d I O n1 is1 os1 n0 is0 os0 vl
/-- `X(cpy2d_co)`, kernel/cpy2d.c:119-128 -/
def cpy2dCo (I O : Ptr) (n0 : ℕ) (is0 os0 : ℤ) (n1 : ℕ) (is1 os1 : ℤ) (vl : ℕ) : State → State :=
  if |os0| < |os1| then cpy2d I O n0 is0 os0 n1 is1 os1 vl else cpy2d I O n1 is1 os1 n0 is0 os0 vl

/-- `X(tile2d)`, kernel/tile2d.c:24-48 (`h` is the assertion; without it the C program does not terminate) -/
def tile2d (tilesz : ℕ) (h : 0 < tilesz) (f : ℕ → ℕ → ℕ → ℕ → State → State) (n0l n0u n1l n1u : ℕ) (st : State) : State :=
  let d0 := n0u - n0l
  let d1 := n1u - n1l
  if d0 ≥ d1 ∧ d0 > tilesz then
    let n0m := (n0u + n0l) / 2
    tile2d tilesz h f n0m n0u n1l n1u (tile2d tilesz h f n0l n0m n1l n1u st)
  else if d1 > tilesz then
    let n1m := (n1u + n1l) / 2
    tile2d tilesz h f n0l n0u n1m n1u (tile2d tilesz h f n0l n0u n1l n1m st)
  else f n0l n0u n1l n1u st
termination_by (n0u - n0l) + (n1u - n1l)
decreasing_by all_goals omega

/-- `CACHESIZE`, kernel/ifftw.h:959 -/
def CACHESIZE : ℕ := 8192

/-- `X(compute_tilesz)`, kernel/tile2d.c:50-54 -/
def computeTilesz (szR vl k : ℕ) : Option ℤ := Primes.isqrt ((CACHESIZE / (szR * vl * k) : ℕ) : ℤ)

/-- `dotile` with its closure, kernel/cpy2d.c:137-145 -/
def cpyTile (I O : Ptr) (is0 os0 is1 os1 : ℤ) (vl : ℕ) (n0l n0u n1l n1u : ℕ) : State → State :=
  cpy2d (I + ((n0l : ℤ) * is0 + (n1l : ℤ) * is1)) (O + ((n0l : ℤ) * os0 + (n1l : ℤ) * os1)) (n0u - n0l) is0 os0 (n1u - n1l) is1 os1 vl

/-- `dotile_buf` with its closure, kernel/cpy2d.c:147-165 -/
def cpyTileBuf (I O buf : Ptr) (is0 os0 is1 os1 : ℤ) (vl : ℕ) (n0l n0u n1l n1u : ℕ) (st : State) : State :=
  let st := cpy2dCi (I + ((n0l : ℤ) * is0 + (n1l : ℤ) * is1)) buf (n0u - n0l) is0 vl (n1u - n1l) is1 ((vl * (n0u - n0l) : ℕ) : ℤ) vl st
  cpy2dCo buf (O + ((n0l : ℤ) * os0 + (n1l : ℤ) * os1)) (n0u - n0l) vl os0 (n1u - n1l) ((vl * (n0u - n0l) : ℕ) : ℤ) os1 vl st

/-- `X(cpy2d_tiled)`, kernel/cpy2d.c:168-186; `t` is `compute_tilesz(vl, 2)` -/
def cpy2dTiled (t : ℕ) (h : 0 < t) (I O : Ptr) (n0 : ℕ) (is0 os0 : ℤ) (n1 : ℕ) (is1 os1 : ℤ) (vl : ℕ) : State → State :=
  tile2d t h (cpyTile I O is0 os0 is1 os1 vl) 0 n0 0 n1
/-- `X(cpy2d_tiledbuf)`, kernel/cpy2d.c:188-207 -/
def cpy2dTiledbuf (t : ℕ) (h : 0 < t) (I O : Ptr) (n0 : ℕ) (is0 os0 : ℤ) (n1 : ℕ) (is1 os1 : ℤ) (vl : ℕ) (st : State) : State :=
  tile2d t h (cpyTileBuf I O st.fresh is0 os0 is1 os1 vl) 0 n0 0 n1 st.malloc

/-- `X(cpy2d_pair)`, kernel/cpy2d-pair.c:24-37 -/
def cpy2dPair (I0 I1 O0 O1 : Ptr) (n0 : ℕ) (is0 os0 : ℤ) (n1 : ℕ) (is1 os1 : ℤ) (st : State) : State :=
  forN n1 (fun i1 st => forN n0 (fun i0 st =>
    let x0 := st.mem (I0 + ((i0 : ℤ) * is0 + (i1 : ℤ) * is1))
    let x1 := st.mem (I1 + ((i0 : ℤ) * is0 + (i1 : ℤ) * is1))
    (st.set (O0 + ((i0 : ℤ) * os0 + (i1 : ℤ) * os1)) x0).set (O1 + ((i0 : ℤ) * os0 + (i1 : ℤ) * os1)) x1) st) st
/-- `X(zero1d_pair)`, kernel/cpy2d-pair.c:39-46 -/
def zero1dPair (O0 O1 : Ptr) (n0 : ℕ) (os0 : ℤ) (st : State) : State :=
  forN n0 (fun i0 st => (st.set (O0 + (i0 : ℤ) * os0) 0).set (O1 + (i0 : ℤ) * os0) 0) st
/-- `X(cpy2d_pair_ci)`, kernel/cpy2d-pair.c:49-57 -/
def cpy2dPairCi (I0 I1 O0 O1 : Ptr) (n0 : ℕ) (is0 os0 : ℤ) (n1 : ℕ) (is1 os1 : ℤ) : State → State :=
  if |is0| < |is1| then cpy2dPair I0 I1 O0 O1 n0 is0 os0 n1 is1 os1 else cpy2dPair I0 I1 O0 O1 n1 is1 os1 n0 is0 os0
/-- `X(cpy2d_pair_co)`, kernel/cpy2d-pair.c:60-68 -/
def cpy2dPairCo (I0 I1 O0 O1 : Ptr) (n0 : ℕ) (is0 os0 : ℤ) (n1 : ℕ) (is1 os1 : ℤ) : State → State :=
  if |os0| < |os1| then cpy2dPair I0 I1 O0 O1 n0 is0 os0 n1 is1 os1 else cpy2dPair I0 I1 O0 O1 n1 is1 os1 n0 is0 os0

/-- `x0 = *a; y0 = *b; *b = x0; *a = y0` -/
def swap1 (a b : Ptr) (st : State) : State :=
  let x0 := st.mem a
  let y0 := st.mem b
  (st.set b x0).set a y0
/-- the same with pairs -/
def swap2 (a b : Ptr) (st : State) : State :=
  let x0 := st.mem a
  let x1 := st.mem (a + (1 : ℤ))
  let y0 := st.mem b
  let y1 := st.mem (b + (1 : ℤ))
  (((st.set b x0).set (b + (1 : ℤ)) x1).set a y0).set (a + (1 : ℤ)) y1
/-- exchange of two `vl`-tuples: the three cases of the `switch (vl)` in kernel/transpose.c -/
def swapV (vl : ℕ) (a b : Ptr) (st : State) : State :=
  if vl = 1 then swap1 a b st
  else if vl = 2 then swap2 a b st
  else forN vl (fun v st => swap1 (a + (v : ℤ)) (b + (v : ℤ)) st) st

/-- `X(transpose)`, kernel/transpose.c:24-67 -/
def transpose (I : Ptr) (n : ℕ) (s0 s1 : ℤ) (vl : ℕ) (st : State) : State :=
  forN (n - 1) (fun k st => forN (k + 1) (fun i0 st =>
    let i1 : ℤ := (k : ℤ) + 1
    swapV vl (I + (i1 * s0 + (i0 : ℤ) * s1)) (I + (i1 * s1 + (i0 : ℤ) * s0)) st) st) st

/-- `dotile` with its closure, kernel/transpose.c:75-118 -/
def trTile (s0 s1 : ℤ) (vl : ℕ) (I : Ptr) (n0l n0u n1l n1u : ℕ) (st : State) : State :=
  forN (n1u - n1l) (fun k1 st => forN (n0u - n0l) (fun k0 st =>
    let i1 : ℤ := ((n1l + k1 : ℕ) : ℤ)
    let i0 : ℤ := ((n0l + k0 : ℕ) : ℤ)
    swapV vl (I + (i1 * s0 + i0 * s1)) (I + (i1 * s1 + i0 * s0)) st) st) st

/-- `dotile_buf` with its closure, kernel/transpose.c:120-144 -/
def trTileBuf (buf0 buf1 : Ptr) (s0 s1 : ℤ) (vl : ℕ) (I : Ptr) (n0l n0u n1l n1u : ℕ) (st : State) : State :=
  let A := I + ((n0l : ℤ) * s0 + (n1l : ℤ) * s1)
  let B := I + ((n0l : ℤ) * s1 + (n1l : ℤ) * s0)
  let n0 := n0u - n0l
  let n1 := n1u - n1l
  let w : ℤ := ((vl * n0 : ℕ) : ℤ)
  let st := cpy2dCi A buf0 n0 s0 vl n1 s1 w vl st
  let st := cpy2dCi B buf1 n0 s1 vl n1 s0 w vl st
  let st := cpy2dCo buf1 A n0 vl s0 n1 w s1 vl st
  cpy2dCo buf0 B n0 vl s1 n1 w s0 vl st

/-- `transpose_rec`, kernel/transpose.c:146-159 -/
def transposeRec (t : ℕ) (h : 0 < t) (f : Ptr → ℕ → ℕ → ℕ → ℕ → State → State) (s0 s1 : ℤ) (I : Ptr) (n : ℕ) (st : State) : State :=
  if n > 1 then
    let n2 := n / 2
    let st := tile2d t h (f I) 0 n2 n2 n st
    let st := transposeRec t h f s0 s1 I n2 st
    transposeRec t h f s0 s1 (I + (n2 : ℤ) * (s0 + s1)) (n - n2) st
  else st
termination_by n
decreasing_by all_goals omega

/-- `X(transpose_tiled)`, kernel/transpose.c:161-171 -/
def transposeTiled (t : ℕ) (h : 0 < t) (I : Ptr) (n : ℕ) (s0 s1 : ℤ) (vl : ℕ) : State → State :=
  transposeRec t h (trTile s0 s1 vl) s0 s1 I n
/-- `X(transpose_tiledbuf)`, kernel/transpose.c:173-193 -/
def transposeTiledbuf (t : ℕ) (h : 0 < t) (I : Ptr) (n : ℕ) (s0 s1 : ℤ) (vl : ℕ) (st : State) : State :=
  transposeRec t h (trTileBuf st.fresh st.malloc.fresh s0 s1 vl) s0 s1 I n st.malloc.malloc

end FFTW.Copy
