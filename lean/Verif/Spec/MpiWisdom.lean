import Verif.Model.MpiWisdom
import Verif.Proofs.Wisdom5
import Verif.Props.Wisdom

/-!
# What the processes of an MPI program know (for C60)
-/

namespace FFTW.Mpi.MWisdom
open FFTW.Planner WisdomSpec

/-- process `w` has saved the fact `e` -/
def Saved (sts : PSts) (w : ℕ) (e : Entry) : Prop := e ∈ (sts w).blessed.contents

/-- process `w` finds an answer in its tables, if asked about signature `s` with flags `f` -/
def Finds (sts : PSts) (w : ℕ) (s : MSig) (f : FlagsT) : Prop := ∃ x, hlookup (sts w) s f = .ok (some x)

/-- The processes of `c` are configured alike (`Registry`, and names of reasonable length); their tables are well formed; they are between two calls of the planner, so that there is no temporary
knowledge; they have saved no more than 2^30 facts altogether, and these can be written to a file. -/
structure Ready (env : ℕ → Env) (c : Comm) (sts : PSts) : Prop where
  nonempty : c ≠ []
  nodup : c.Nodup
  same : ∀ v ∈ c, ∀ w ∈ c, (env v).slvdescs = (env w).slvdescs
  reg : ∀ w ∈ c, Registry (env w)
  len : ∀ w ∈ c, (configMessage 8 (registered (env w))).length < 2 ^ 29
  tables : ∀ w ∈ c, TInv (env w) (sts w)
  temp : ∀ w ∈ c, (sts w).unblessed.contents = 0
  exp : ∀ w ∈ c, ∀ e, Saved sts w e → Exportable (env w) e
  room : (c.map fun w => (sts w).blessed.nelem).sum ≤ 2 ^ 30

/-- no fact makes superfluous another one, unless both are plans (a process may have saved that there is no plan: its time was up; then none has saved a plan for the same question) -/
def NoConflict (c : Comm) (sts : PSts) : Prop :=
  ∀ v ∈ c, ∀ w ∈ c, ∀ a b, Saved sts v a → Saved sts w b → a ≠ b → Answers a b.s b.l b.u b.tli → a.slvndx ≠ 0xFFF ∧ b.slvndx ≠ 0xFFF

end FFTW.Mpi.MWisdom
