import Verif.Model.DftCt

/-!
# kernel/buffered.c and dft/buffered.c
-/

namespace FFTW.DftS
open Tensor

/-- `MAXBUFSZ`, kernel/buffered.c:28; `szR` is `sizeof(R)` -/
def maxbufsz (szR : ℕ) : ℕ := 256 * 1024 / szR

/-- the first value in `i, i-1, ..., lb` that divides `vl`; loop of `X(nbuf)`, kernel/buffered.c:45-47 -/
def nbufSearch (vl lb : ℕ) : ℕ → Option ℕ
  | 0 => none
  | i + 1 => if i + 1 < lb then none else if vl % (i + 1) = 0 then some (i + 1) else nbufSearch vl lb i

/-- `X(nbuf)`, kernel/buffered.c:30-51 -/
def nbuf (szR n vl maxnbuf : ℕ) : ℕ :=
  let maxnbuf := if maxnbuf = 0 then 256 else maxnbuf
  let nbuf := min maxnbuf (min vl (max 1 (maxbufsz szR / n)))
  let lb := max 1 (nbuf / 4)
  (nbufSearch vl lb nbuf).getD nbuf

/-- `X(bufdist)`, kernel/buffered.c:56-63 -/
def bufdist (n vl : ℕ) : ℕ := if vl = 1 then n else n + ((6 - (n : ℤ)) % 8).toNat

/-- `X(nbuf_redundant)`, kernel/buffered.c:73-82 -/
def nbufRedundant (szR n vl which : ℕ) (maxnbuf : List ℕ) : Bool :=
  (List.range which).any fun i => decide (nbuf szR n vl (maxnbuf.getD i 0) = nbuf szR n vl (maxnbuf.getD which 0))

/-- `maxnbufs`, dft/buffered.c:29 -/
def maxnbufs : List ℕ := [8, 256]

/-- the loop `for (i = nbuf; i <= vl; i += nbuf)` of `apply`, dft/buffered.c:56-64, with the number `k` of rounds done; pointers advanced `k`
times are written as multiples.  (`nbuf = 0` cannot happen: `A(nbuf > 0)`, dft/buffered.c:177.) -/
def bufLoop (nb vl : ℕ) (body : ℕ → State → State) (i k : ℕ) (st : State) : State × ℕ :=
  if h : 0 < nb ∧ i ≤ vl then bufLoop nb vl body (i + nb) (k + 1) (body k st) else (st, k)
termination_by vl + 1 - i

/-- the pointer `MALLOC` returns while planning: a block different from those of the problem's arrays -/
def planBuf (l : List Ptr) : Ptr := ⟨l.foldr (fun p b => max (p.blk + 1) b) 0, 0⟩

/-- structural part of `applicable0`, dft/buffered.c:96-148 -/
def bufferedApplicable (szR which : ℕ) (p : DftP) (d vd : Dim) (v : List Dim) : Bool :=
  !nbufRedundant szR d.n vd.n which maxnbufs &&
    (if p.ri ≠ p.ro then decide (d.os > 2)
     else inplaceStrides2 p.sz v || decide (v.length = 0) || decide (nbuf szR d.n vd.n (maxnbufs.getD which 0) = vd.n))

section
variable [CLib]

/-- dft/buffered.c, `apply` 43-70, `mkplan` 163-262 -/
def buffered (szR which : ℕ) (taste : Taste) : Solver := dftSolver fun p fl =>
  match p.sz, p.vecsz with
  | [d], some v =>
    match tornk1 v with
    | some vd =>
      if bufferedApplicable szR which p d vd v ∧ taste (.dft p) fl then
        let nb := nbuf szR d.n vd.n (maxnbufs.getD which 0)
        let bd : ℤ := bufdist d.n vd.n
        let roff : ℤ := if (p.ri - p.ii : ℤ) > (0 : ℤ) then 1 else 0
        let ioff : ℤ := 1 - roff
        let bufs := planBuf [p.ri, p.ii, p.ro, p.io]
        .need (mkproblemDft [⟨d.n, d.is, 2⟩] (some [⟨nb, vd.is, bd * 2⟩]) p.ri p.ii (bufs + roff) (bufs + ioff))
          { ureset := if p.ri = p.ro then NO_DESTROY_INPUT else 0 } fun cld =>
        .need (mkproblemDft [] (some [⟨nb, bd * 2, vd.os⟩, ⟨d.n, 2, d.os⟩]) (bufs + roff) (bufs + ioff) p.ro p.io) {} fun cldcpy =>
        let id : ℤ := vd.is * ((nb : ℤ) * ((vd.n / nb : ℕ) : ℤ))
        let od : ℤ := vd.os * ((nb : ℤ) * ((vd.n / nb : ℕ) : ℤ))
        .need (mkproblemDft p.sz (some [⟨vd.n % nb, vd.is, vd.os⟩]) (p.ri + id) (p.ii + id) (p.ro + od) (p.io + od)) {} fun cldrest =>
        .ret (some (.dft fun ri ii ro io st =>
          let ivs := vd.is * (nb : ℤ)
          let ovs := vd.os * (nb : ℤ)
          let r := bufLoop nb vd.n (fun k => withBuf fun B st =>
            cldcpy.dftApply (B + roff) (B + ioff) (ro + (k : ℤ) * ovs) (io + (k : ℤ) * ovs)
              (cld.dftApply (ri + (k : ℤ) * ivs) (ii + (k : ℤ) * ivs) (B + roff) (B + ioff) st)) nb 0 st
          cldrest.dftApply (ri + (r.2 : ℤ) * ivs) (ii + (r.2 : ℤ) * ivs) (ro + (r.2 : ℤ) * ovs) (io + (r.2 : ℤ) * ovs) r.1))
      else .nada
    | none => .nada
  | _, _ => .nada

end

end FFTW.DftS
