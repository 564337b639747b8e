import Verif.Model.Buffered
import Verif.Model.RdftSolvers

/-!
# rdft/buffered.c
-/

namespace FFTW.RdftS
open Tensor DftS

/-- structural part of `applicable0`, rdft/buffered.c:130-185 -/
def bufferedApplicable (szR which : ℕ) (p : RdftP) (d : Dim) (kind : RKind) (vd : Dim) (v : List Dim) (nd : Bool) : Bool :=
  !nbufRedundant szR d.n vd.n which maxnbufs &&
    (if p.I ≠ p.O then (if kind = .HC2R00 then nd else decide (d.os > 1))
     else inplaceStrides2 (p.sz.map Prod.fst) v || decide (v.length = 0) || decide (nbuf szR d.n vd.n (maxnbufs.getD which 0) = vd.n))

variable [CLib]

/-- rdft/buffered.c, `apply` 40-66, `apply_hc2r` 71-97, `mkplan` 216-310 -/
def buffered (szR which : ℕ) (taste : Taste) : Solver := rdftSolver fun p fl =>
  match p.sz, p.vecsz with
  | [(d, kind)], some v =>
    match tornk1 v with
    | some vd =>
      if bufferedApplicable szR which p d kind vd v fl.nd ∧ taste (.rdft p) fl then
        let nb := nbuf szR d.n vd.n (maxnbufs.getD which 0)
        let bd : ℤ := bufdist d.n vd.n
        let bufs := planBuf [p.I, p.O]
        let id : ℤ := vd.is * ((nb : ℤ) * ((vd.n / nb : ℕ) : ℤ))
        let od : ℤ := vd.os * ((nb : ℤ) * ((vd.n / nb : ℕ) : ℤ))
        let ivs := vd.is * (nb : ℤ)
        let ovs := vd.os * (nb : ℤ)
        if kind = .HC2R00 then
          .need (mkproblemRdft [(⟨d.n, 1, d.os⟩, kind)] (some [⟨nb, bd, vd.os⟩]) bufs p.O) { ureset := NO_DESTROY_INPUT } fun cld =>
          .need (mkproblemRdft [] (some [⟨nb, vd.is, bd⟩, ⟨d.n, d.is, 1⟩]) p.I bufs) {} fun cldcpy =>
          .need (mkproblemRdft p.sz (some [⟨vd.n % nb, vd.is, vd.os⟩]) (p.I + id) (p.O + od)) {} fun cldrest =>
          .ret (some (.rdft fun I O st =>
            let r := bufLoop nb vd.n (fun k => withBuf fun B st =>
              cld.rdftApply B (O + (k : ℤ) * ovs) (cldcpy.rdftApply (I + (k : ℤ) * ivs) B st)) nb 0 st
            cldrest.rdftApply (I + (r.2 : ℤ) * ivs) (O + (r.2 : ℤ) * ovs) r.1))
        else
          .need (mkproblemRdft [(⟨d.n, d.is, 1⟩, kind)] (some [⟨nb, vd.is, bd⟩]) p.I bufs)
            { ureset := if p.I = p.O then NO_DESTROY_INPUT else 0 } fun cld =>
          .need (mkproblemRdft [] (some [⟨nb, bd, vd.os⟩, ⟨d.n, 1, d.os⟩]) bufs p.O) {} fun cldcpy =>
          .need (mkproblemRdft p.sz (some [⟨vd.n % nb, vd.is, vd.os⟩]) (p.I + id) (p.O + od)) {} fun cldrest =>
          .ret (some (.rdft fun I O st =>
            let r := bufLoop nb vd.n (fun k => withBuf fun B st =>
              cldcpy.rdftApply B (O + (k : ℤ) * ovs) (cld.rdftApply (I + (k : ℤ) * ivs) B st)) nb 0 st
            cldrest.rdftApply (I + (r.2 : ℤ) * ivs) (O + (r.2 : ℤ) * ovs) r.1))
      else .nada
    | none => .nada
  | _, _ => .nada

end FFTW.RdftS
