import Verif.Model.CInt
/-!
# `kernel/kalloc.c` — `our_malloc` / `our_free`

Addresses are natural numbers below `2^64` (`uintptr_t`), memory is an array of bytes, `sizeof(void*) = 8`
(little endian).  `malloc` is a parameter.  `MIN_ALIGNMENT = A`.
-/

namespace FFTW.Kalloc

/-- byte-addressed memory -/
abbrev Mem := Nat → Nat

/-- load a pointer -/
def load64 (m : Mem) (a : Nat) : Nat :=
  m a + 256 * (m (a+1) + 256 * (m (a+2) + 256 * (m (a+3) + 256 * (m (a+4) + 256 * (m (a+5) + 256 * (m (a+6) + 256 * m (a+7)))))))

/-- store a pointer -/
def store64 (m : Mem) (a v : Nat) : Mem := fun x =>
  if a ≤ x ∧ x < a + 8 then v / 256 ^ (x - a) % 256 else m x

/-- `uintptr_t` bitwise complement -/
def cpl (x : Nat) : Nat := 2 ^ 64 - 1 - x

/-- `our_malloc`, kernel/kalloc.c:58-65.  `p0` is the result of `malloc(n + MIN_ALIGNMENT)` (0 = failure).
Returns the pointer, or `none` if the store of `p0` would fall outside the `n + A` bytes obtained. -/
def ourMalloc (A : Nat) (p0 : Nat) (n : Nat) (m : Mem) : C (Nat × Mem) :=
  if p0 = 0 then some (0, m)
  else
    let p := ((p0 + A) % 2 ^ 64) &&& cpl (A - 1)
    if p0 ≤ p - 8 ∧ 8 ≤ p ∧ p ≤ p0 + (n + A) then some (p, store64 m (p - 8) p0) else none

/-- `our_free`, kernel/kalloc.c:66-69: the address passed to `free`, if any -/
def ourFree (m : Mem) (p : Nat) : Option Nat := if p ≠ 0 then some (load64 m (p - 8)) else none

end FFTW.Kalloc
