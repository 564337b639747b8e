import Verif.Model.Hc2hc
import Verif.Model.Rdft2

/-!
# threads/ — solvers that share the work among threads

threads/dft-vrank-geq1.c, threads/rdft-vrank-geq1.c, threads/vrank-geq1-rdft2.c, threads/ct.c, threads/hc2hc.c.

`X(spawn_loop)(nthr, nthr, spawn_apply, &d)` runs `spawn_apply` once for every `thr_num < nthr` (Model/Spawn, Model/Pool), in an order that
the program does not control.  Here the order is an arbitrary permutation chosen by a `Sched`, which may look at the whole memory; one
`spawn_apply` runs as a whole.  That finer interleavings make no difference is a separate theorem (Props/Threads).
-/

namespace FFTW.Thr
open Tensor

/-- a scheduler: the order in which `n` threads run -/
structure Sched where
  order : ℕ → State → List ℕ
  perm : ∀ n st, (order n st).Perm (List.range n)

/-- `X(spawn_loop)(n, n, body, ...)` as seen by the solvers; threads/threads.c:382-452 with `loopmax == nthr` (`C55_spawnLoop_unit`) -/
def spawn (S : Sched) (n : ℕ) (body : ℕ → State → State) (st : State) : State := (S.order n st).foldl (fun st i => body i st) st

/-- `block_size = (n + plnr->nthr - 1) / plnr->nthr`, threads/dft-vrank-geq1.c:158, rdft-vrank-geq1.c:156, vrank-geq1-rdft2.c:166, ct.c:142, hc2hc.c:141 -/
def blockSize (n nthr : ℕ) : ℕ := (n + nthr - 1) / nthr

/-- `nthr = (n + block_size - 1) / block_size`, the following line of each file -/
def count (n nthr : ℕ) : ℕ := (n + blockSize n nthr - 1) / blockSize n nthr

/-- `(i == nthr - 1) ? (n - i*block_size) : block_size`, threads/dft-vrank-geq1.c:169-170 and others -/
def blockLen (n nthr i : ℕ) : ℕ := if i = count n nthr - 1 then n - i * blockSize n nthr else blockSize n nthr

/-- `plnr->nthr = (plnr->nthr + nthr - 1) / nthr`, threads/dft-vrank-geq1.c:160 and others: threads left for each child -/
def inner (n nthr : ℕ) : ℕ := (nthr + count n nthr - 1) / count n nthr

/-- `for (i = 0; i < n; ++i) { cldrn[i] = mk(i); if (!cldrn[i]) goto nada; }` -/
def collect {α : Type} (mk : ℕ → Mk (Option α)) : ℕ → Mk (Option (List α))
  | 0 => .ret (some [])
  | n + 1 => (collect mk n).bind fun r => match r with
    | none => .ret none
    | some l => (mk n).bind fun r => match r with
      | none => .ret none
      | some a => .ret (some (l ++ [a]))

/-- `cldrn[i]->apply(...)`; the array is never read out of bounds (`spawn` passes `i < nthr`), so what happens then does not matter -/
def nth {α : Type} (l : List α) (i : ℕ) (run : α → State → State) (st : State) : State :=
  match l[i]? with
  | none => st
  | some c => run c st

/-- everything planned by `mk` is planned with `plnr->nthr = n` -/
def withNthr {α : Type} (n : ℕ) : Mk α → Mk α
  | .ret a => .ret a
  | .plan p m k => .plan p { m with nthr := some n } fun r => withNthr n (k r)

end FFTW.Thr

namespace FFTW.DftS
open Tensor Thr

variable [CLib]

/-- threads/dft-vrank-geq1.c, `spawn_apply` 45-57, `apply` 59-70, `applicable0` 108-120, `mkplan` 136-204; `taste` covers `NO_VRANK_SPLITSP` -/
def thrVrankGeq1 (S : Sched) (vecloopDim : Int) (buddies : List Int) (taste : Taste) : Solver := dftSolver fun p fl =>
  match p.vecsz with
  | none => .nada
  | some v =>
    if fl.nthr > 1 ∧ v.length > 0 then
      match pickdim vecloopDim buddies v (decide (p.ri ≠ p.ro)) with
      | none => .nada
      | some vdim =>
        if taste (.dft p) fl then
          match v[vdim]? with
          | none => .nada
          | some d =>
            let bs := blockSize d.n fl.nthr
            let nthr := count d.n fl.nthr
            let its := d.is * (bs : ℤ)
            let ots := d.os * (bs : ℤ)
            (collect (fun i =>
              .plan (mkproblemDft p.sz (some (v.set vdim ⟨blockLen d.n fl.nthr i, d.is, d.os⟩))
                (p.ri + (i : ℤ) * its) (p.ii + (i : ℤ) * its) (p.ro + (i : ℤ) * ots) (p.io + (i : ℤ) * ots))
                { nthr := some (inner d.n fl.nthr) } .ret) nthr).bind fun r => match r with
            | none => .nada
            | some cldrn => .ret (some (.dft fun ri ii ro io st =>
                spawn S nthr (fun i => nth cldrn i fun cld =>
                  cld.dftApply (ri + (i : ℤ) * its) (ii + (i : ℤ) * its) (ro + (i : ℤ) * ots) (io + (i : ℤ) * ots)) st))
        else .nada
    else .nada

omit [CLib] in
/-- The twiddle step of threads/ct.c: `spawn_apply` 37-45, `apply_dit` 47-63, `apply_dif` 65-81, and in `mkplan` the test `plnr->nthr <= 1` 131 and
the planning of the `cldws` 142-163, 207-217.  Thread `i` does the columns of block `i`.  (`ctWith` calls this with `t.mb = 0`, `t.mc = t.m`.) -/
def thrInferior (S : Sched) (mkcldw : Inferior) : Inferior := fun t rio iio fl =>
  if fl.nthr > 1 then
    let bs := blockSize t.mc fl.nthr
    let nthr := count t.mc fl.nthr
    (collect (fun i => withNthr (inner t.mc fl.nthr)
      (mkcldw { t with mb := t.mb + i * bs, mc := blockLen t.mc fl.nthr i } rio iio { fl with nthr := inner t.mc fl.nthr })) nthr).bind fun r => match r with
    | none => .ret none
    | some cldws => .ret (some fun rio iio st => spawn S nthr (fun i => nth cldws i fun c => c rio iio) st)
  else .ret none

/-- threads/ct.c, `mkplan` 116-258; `plnr->nthr = plnr_nthr_save` before `cld` is planned -/
def thrCt (S : Sched) (rdx : ℤ) (dec : Dec) (mkcldw : Inferior) (taste : Taste) : Solver :=
  ctWith (fun fl => { nthr := some fl.nthr }) rdx dec (thrInferior S mkcldw) taste

end FFTW.DftS

namespace FFTW.RdftS
open Tensor DftS Thr

variable [CLib]

/-- threads/rdft-vrank-geq1.c, `spawn_apply` 45-54, `apply` 56-67, `applicable0` 105-117, `mkplan` 133-201 -/
def thrVrankGeq1 (S : Sched) (vecloopDim : Int) (buddies : List Int) (taste : Taste) : Solver := rdftSolver fun p fl =>
  match p.vecsz with
  | none => .nada
  | some v =>
    if fl.nthr > 1 ∧ v.length > 0 then
      match pickdim vecloopDim buddies v (decide (p.I ≠ p.O)) with
      | none => .nada
      | some vdim =>
        if taste (.rdft p) fl then
          match v[vdim]? with
          | none => .nada
          | some d =>
            let bs := blockSize d.n fl.nthr
            let nthr := count d.n fl.nthr
            let its := d.is * (bs : ℤ)
            let ots := d.os * (bs : ℤ)
            (collect (fun i =>
              .plan (mkproblemRdft p.sz (some (v.set vdim ⟨blockLen d.n fl.nthr i, d.is, d.os⟩)) (p.I + (i : ℤ) * its) (p.O + (i : ℤ) * ots))
                { nthr := some (inner d.n fl.nthr) } .ret) nthr).bind fun r => match r with
            | none => .nada
            | some cldrn => .ret (some (.rdft fun I O st =>
                spawn S nthr (fun i => nth cldrn i fun cld => cld.rdftApply (I + (i : ℤ) * its) (O + (i : ℤ) * ots)) st))
        else .nada
    else .nada

omit [CLib] in
/-- The twiddle step of threads/hc2hc.c: `spawn_apply` 36-43, `apply_dit` 45-61, `apply_dif` 63-79, and in `mkplan` the test `plnr->nthr <= 1` 129 and
the planning of the `cldws` 141-159, 176-184.  (`hc2hcWith` calls this with `t.mb = 0`, `t.mc = mcount = (m + 2) / 2`.) -/
def thrHInferior (S : Sched) (mkcldw : HInferior) : HInferior := fun fwd t IO fl =>
  if fl.nthr > 1 then
    let bs := blockSize t.mc fl.nthr
    let nthr := count t.mc fl.nthr
    (collect (fun i => withNthr (inner t.mc fl.nthr)
      (mkcldw fwd { t with mb := t.mb + i * bs, mc := blockLen t.mc fl.nthr i } IO { fl with nthr := inner t.mc fl.nthr })) nthr).bind fun r => match r with
    | none => .ret none
    | some cldws => .ret (some fun IO st => spawn S nthr (fun i => nth cldws i fun c => c IO) st)
  else .ret none

/-- threads/hc2hc.c, `mkplan` 114-224 -/
def thrHc2hc (S : Sched) (rdx : ℤ) (mkcldw : HInferior) (taste : Taste) : Solver :=
  hc2hcWith (fun fl => { nthr := some fl.nthr }) rdx (thrHInferior S mkcldw) taste

end FFTW.RdftS

namespace FFTW.Rdft2S
open Tensor DftS Thr

variable [CLib]

/-- threads/vrank-geq1-rdft2.c, `spawn_apply` 47-59, `apply` 61-72, `applicable0` 110-127, `mkplan` 143-213 -/
def thrVrankGeq1 (S : Sched) (vecloopDim : Int) (buddies : List Int) (taste : Taste) : Solver := rdft2Solver fun p fl =>
  match p.vecsz with
  | none => .nada
  | some v =>
    if v.length > 0 ∧ fl.nthr > 1 then
      match pickdim vecloopDim buddies v (decide (p.r0 ≠ p.cr)) with
      | none => .nada
      | some vdim =>
        if (p.r0 ≠ p.cr ∨ inplaceStridesR2 p (some vdim) = true) ∧ taste (.rdft2 p) fl then
          match v[vdim]? with
          | none => .nada
          | some d =>
            let bs := blockSize d.n fl.nthr
            let nthr := count d.n fl.nthr
            let its := rstride p.kind d * (bs : ℤ)
            let ots := cstride p.kind d * (bs : ℤ)
            (collect (fun i =>
              .plan (mkproblemRdft2 p.sz (some (v.set vdim ⟨blockLen d.n fl.nthr i, d.is, d.os⟩))
                (p.r0 + (i : ℤ) * its) (p.r1 + (i : ℤ) * its) (p.cr + (i : ℤ) * ots) (p.ci + (i : ℤ) * ots) p.kind)
                { nthr := some (inner d.n fl.nthr) } .ret) nthr).bind fun r => match r with
            | none => .nada
            | some cldrn => .ret (some (.rdft2 fun r0 r1 cr ci st =>
                spawn S nthr (fun i => nth cldrn i fun cld =>
                  cld.rdft2Apply (r0 + (i : ℤ) * its) (r1 + (i : ℤ) * its) (cr + (i : ℤ) * ots) (ci + (i : ℤ) * ots)) st))
        else .nada
    else .nada

end FFTW.Rdft2S
