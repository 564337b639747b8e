import Verif.Spec.Wisdom
import Verif.Spec.ScanFormat
import Verif.Model.Planner

/-!
# What a line of a wisdom file means (for C19 and C21)
-/

namespace FFTW.Planner.WisdomSpec
open FFTW.Scan FFTW.Scan.Spec

/-- characters as codes -/
def codes (s : List UInt8) : List Int := s.map fun c => (c.toNat : Int)

/-- the solver name and number of the fact `e`, for the registered solvers of `env` -/
def Names (env : Env) (e : Entry) (nam : List Int) (id : Int) : Prop :=
  (e.slvndx = 0xFFF ∧ nam = "TIMEOUT".toList.map Print.chr ∧ id = 0) ∨
  ∃ d, env.slvdescs[e.slvndx.toNat]? = some d ∧ codes d.regNam = nam ∧ d.regId = id

/-- a line of a wisdom file says `e`: the solver it names is registered, only "no plan" facts may carry a time-limit class,
and the numbers are those of `e` -/
def LineSays (env : Env) (text : List Int) (e : Entry) : Prop :=
  ∃ nam id l u tli, Fits "(%*s %d #x%x #x%x #x%x #x%M #x%M #x%M #x%M)".toList [64] text
      [.str nam, .int id, .int l, .int u, .int tli, .md5 e.s.s0, .md5 e.s.s1, .md5 e.s.s2, .md5 e.s.s3] ∧
    (e.l.toNat : Int) = l % 2 ^ 32 ∧ (e.u.toNat : Int) = u % 2 ^ 32 ∧ (e.tli.toNat : Int) = tli % 2 ^ 32 ∧
    (e.slvndx ≠ 0xFFF → e.tli = 0) ∧ Names env e (nam.takeWhile (fun c => decide (c ≠ 0))) id

end FFTW.Planner.WisdomSpec
