import Verif.Model.Trig

/-!
# `kernel/twiddle.c` — twiddle tables and their cache

`INT` is unbounded.  A twiddle program ends with `TW_NEXT`, whose `v` is the vector length; it is stored apart from the other
instructions.  Objects (`twid`) are named by addresses; an address is not handed out twice.
-/

namespace FFTW.Twiddle

/-- `enum wakefulness`, kernel/ifftw.h:558-563, without `SLEEPY` -/
inductive Wake
  | zero | sqrtnTable | sincos
  deriving DecidableEq

/-- opcodes except `TW_NEXT`, kernel/ifftw.h:872-873 -/
inductive Op
  | cos | sin | cexp | full | half
  deriving DecidableEq

/-- `tw_instr`, kernel/ifftw.h:875-879 -/
structure Instr where
  op : Op
  v : ℤ
  i : ℤ
  deriving DecidableEq

/-- a twiddle program: instructions, then `TW_NEXT` with vector length `vl` -/
structure Prog where
  is : List Instr
  vl : ℕ
  deriving DecidableEq

/-- `t->cexp` of `mktriggen(wakefulness, n)`, kernel/trig.c:169-226, as a function of `n` and `m` (0 for a read outside the
table, which C14 excludes) -/
noncomputable def cexp (COS SIN : ℝ → ℝ) : Wake → ℕ → ℤ → ℝ × ℝ
  | .zero, _, _ => (0, 0)
  | .sincos, n, m => Trig.realCexp COS SIN m n
  | .sqrtnTable, n, m => (Trig.cexplSqrtn (Trig.mkSqrtn COS SIN n) m).getD (0, 0)

section
variable (cexp : ℕ → ℤ → ℝ × ℝ)

/-- values produced by one instruction, kernel/twiddle.c:133-180; `MULMOD(i, j+v, n)` is `i*(j+v) mod n` (C10) -/
def emit (n r : ℕ) (j : ℤ) (p : Instr) : List ℝ :=
  match p.op with
  | .full => (List.range (r - 1)).flatMap fun i0 => let z := cexp n ((j + p.v) * ((i0 + 1 : ℕ) : ℤ)); [z.1, z.2]
  | .half => (List.range ((r - 1) / 2)).flatMap fun i0 => let z := cexp n ((((i0 + 1 : ℕ) : ℤ) * (j + p.v)) % (n : ℤ)); [z.1, z.2]
  | .cos => [(cexp n ((j + p.v) * p.i)).1]
  | .sin => [(cexp n ((j + p.v) * p.i)).2]
  | .cexp => let z := cexp n ((j + p.v) * p.i); [z.1, z.2]

/-- `compute`, kernel/twiddle.c:116-186: `for (j = 0; j < m; j += vl)` -/
def compute (q : Prog) (n r m : ℕ) : List ℝ :=
  (List.range ((m + q.vl - 1) / q.vl)).flatMap fun jj => q.is.flatMap fun p => emit cexp n r ((jj * q.vl : ℕ) : ℤ) p

end

/-- numbers produced by one instruction according to `twlen0`, kernel/twiddle.c:91-104 -/
def opLen (r : ℕ) : Op → ℕ
  | .full => (r - 1) * 2
  | .half => r - 1
  | .cexp => 2
  | .cos => 1
  | .sin => 1

/-- `twlen0`, kernel/twiddle.c:84-108 -/
def twlen (r : ℕ) (q : Prog) : ℕ := (q.is.map fun p => opLen r p.op).sum

/-- what a plan asks for: arguments of `X(twiddle_awake)` -/
structure Req where
  w : Wake
  q : Prog
  n : ℕ
  r : ℕ
  m : ℕ

/-- `twid`, kernel/ifftw.h:881-889 -/
structure Twid where
  W : List ℝ
  n : ℕ
  r : ℕ
  m : ℕ
  refcnt : ℤ
  instr : Prog
  w : Wake

/-- `hash`, kernel/twiddle.c:33-40 -/
def hash (n r : ℤ) : ℕ :=
  let h := n * 17 + r
  ((if h < 0 then -h else h) % 109).toNat

/-- instructions compared by `equal_instr`, kernel/twiddle.c:42-65 (`p == q`, a shortcut, implies the rest) -/
def equalInstrs : List Instr → List Instr → Bool
  | [], [] => true
  | p :: ps, q :: qs =>
    if p.op ≠ q.op then false
    else match p.op with
      | .full | .half => if p.v ≠ q.v then false else equalInstrs ps qs
      | _ => if p.v ≠ q.v ∨ p.i ≠ q.i then false else equalInstrs ps qs
  | _, _ => false

/-- `equal_instr`, kernel/twiddle.c:42-65 -/
def equalInstr (p q : Prog) : Bool := equalInstrs p.is q.is && decide (p.vl = q.vl)

/-- `ok_twid`, kernel/twiddle.c:67-76 -/
def okTwid (t : Twid) (x : Req) : Bool :=
  decide (x.w = t.w) && decide (x.n = t.n) && decide (x.r = t.r) && decide (x.m ≤ t.m) && equalInstr t.instr x.q

/-- all memory of the module: live objects, next address, `twlist`, and the field `td` of every plan -/
structure St where
  heap : ℕ → Option Twid
  next : ℕ
  twlist : ℕ → List ℕ
  td : ℕ → Option ℕ

/-- `lookup`, kernel/twiddle.c:78-88, along one chain; outer `none`: an object on the list is not live -/
def lookupLoop (heap : ℕ → Option Twid) (x : Req) : List ℕ → Option (Option ℕ)
  | [] => some none
  | a :: rest =>
    match heap a with
    | none => none
    | some t => if okTwid t x then some (some a) else lookupLoop heap x rest

/-- `mktwiddle`, kernel/twiddle.c:188-212, for the plan `pl` -/
noncomputable def mktwiddle (cexp : Wake → ℕ → ℤ → ℝ × ℝ) (st : St) (pl : ℕ) (x : Req) : Option St :=
  match lookupLoop st.heap x (st.twlist (hash x.n x.r)) with
  | none => none
  | some (some a) =>
    match st.heap a with
    | none => none
    | some t => some { st with heap := Function.update st.heap a (some { t with refcnt := t.refcnt + 1 }), td := Function.update st.td pl (some a) }
  | some none =>
    let t : Twid := ⟨compute (cexp x.w) x.q x.n x.r x.m, x.n, x.r, x.m, 1, x.q, x.w⟩
    let h := hash x.n x.r
    some { heap := Function.update st.heap st.next (some t), next := st.next + 1,
           twlist := Function.update st.twlist h (st.next :: st.twlist h), td := Function.update st.td pl (some st.next) }

/-- the unlinking loop of `twiddle_destroy`, kernel/twiddle.c:221-229; `none`: "can't happen" -/
def unlink (a : ℕ) : List ℕ → Option (List ℕ)
  | [] => none
  | b :: rest => if b = a then some rest else (unlink a rest).map fun r => b :: r

/-- `twiddle_destroy`, kernel/twiddle.c:214-233, for the plan `pl` -/
def twiddleDestroy (st : St) (pl : ℕ) : Option St :=
  match st.td pl with
  | none => none                                    -- null pointer
  | some a =>
    match st.heap a with
    | none => none                                  -- dangling pointer
    | some t =>
      if t.refcnt - 1 = 0 then
        let h := hash t.n t.r
        match unlink a (st.twlist h) with
        | none => none
        | some l => some { st with heap := Function.update st.heap a none, twlist := Function.update st.twlist h l, td := Function.update st.td pl none }
      else some { st with heap := Function.update st.heap a (some { t with refcnt := t.refcnt - 1 }) }

/-- a call of `X(twiddle_awake)`, kernel/twiddle.c:236-247, by plan `pl` -/
inductive Call
  | wake (pl : ℕ) (x : Req)
  | sleep (pl : ℕ)

/-- `X(twiddle_awake)`, kernel/twiddle.c:236-247 -/
noncomputable def step (cexp : Wake → ℕ → ℤ → ℝ × ℝ) (st : St) : Call → Option St
  | .wake pl x => mktwiddle cexp st pl x
  | .sleep pl => twiddleDestroy st pl

/-- the module at program start -/
def init : St := ⟨fun _ => none, 0, fun _ => [], fun _ => none⟩

/-- a history of calls -/
noncomputable def run (cexp : Wake → ℕ → ℤ → ℝ × ℝ) : St → List Call → Option St
  | st, [] => some st
  | st, c :: cs => (step cexp st c).bind fun st => run cexp st cs

end FFTW.Twiddle
