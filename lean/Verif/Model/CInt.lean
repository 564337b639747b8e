/-!
# Checked C integers

`INT` is `ptrdiff_t` (`kernel/ifftw.h:85`), modelled as 64-bit.  A C expression of type `INT` denotes a
computation in `C := Option`: `none` means that the expression has undefined behaviour (signed overflow,
division by zero, out-of-bounds access, failed precondition) or that the loop computing it does not
terminate (loops are `partial_fixpoint`s: a diverging loop denotes `none`).
A theorem of the form `f x = some y` is thus total correctness without undefined behaviour.
-/

namespace FFTW

/-- C computations that may hit undefined behaviour or diverge (`none`). -/
abbrev C (α : Type) := Option α

/-- the largest `INT` -/
def INT_MAX : Int := 2 ^ 63 - 1
/-- the smallest `INT` -/
def INT_MIN : Int := -2 ^ 63

/-- a mathematical integer is representable as `INT` -/
abbrev IsINT (x : Int) : Prop := INT_MIN ≤ x ∧ x ≤ INT_MAX

/-- signed arithmetic result: undefined when not representable -/
def chk (x : Int) : C Int := if IsINT x then some x else none

/-- C `x + y` on INT -/
def cadd (x y : Int) : C Int := chk (x + y)
/-- C `x - y` on INT -/
def csub (x y : Int) : C Int := chk (x - y)
/-- C `x * y` on INT -/
def cmul (x y : Int) : C Int := chk (x * y)
/-- C `x / y` on INT: truncating; undefined for `y = 0` and on overflow -/
def cdiv (x y : Int) : C Int := if y = 0 then none else chk (x.tdiv y)
/-- C `x % y` on INT: sign of the dividend; undefined for `y = 0` and when `x / y` overflows -/
def cmod (x y : Int) : C Int := if y = 0 then none else if IsINT (x.tdiv y) then some (x.tmod y) else none
/-- C `x >> 1` for nonnegative `x` (implementation-defined otherwise, hence `none`) -/
def cshr1 (x : Int) : C Int := if 0 ≤ x then some (x / 2) else none
/-- C `x & 1` on two's complement INT -/
def cand1 (x : Int) : Int := x % 2

@[simp] theorem chk_of {x : Int} (h : IsINT x) : chk x = some x := if_pos h

end FFTW
