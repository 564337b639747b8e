/-!
# `kernel/md5.c`, `kernel/md5-1.c` — problem signatures

`md5uint` is any unsigned type of `w ≥ 32` bits: `BitVec w` (kernel/ifftw.h:386-390).
-/

namespace FFTW.Md5

abbrev Byte := BitVec 8

/-- `sintab`, kernel/md5.c:32-49 -/
def sintab : List Nat := [
     0xd76aa478, 0xe8c7b756, 0x242070db, 0xc1bdceee,
     0xf57c0faf, 0x4787c62a, 0xa8304613, 0xfd469501,
     0x698098d8, 0x8b44f7af, 0xffff5bb1, 0x895cd7be,
     0x6b901122, 0xfd987193, 0xa679438e, 0x49b40821,
     0xf61e2562, 0xc040b340, 0x265e5a51, 0xe9b6c7aa,
     0xd62f105d, 0x02441453, 0xd8a1e681, 0xe7d3fbc8,
     0x21e1cde6, 0xc33707d6, 0xf4d50d87, 0x455a14ed,
     0xa9e3e905, 0xfcefa3f8, 0x676f02d9, 0x8d2a4c8a,
     0xfffa3942, 0x8771f681, 0x6d9d6122, 0xfde5380c,
     0xa4beea44, 0x4bdecfa9, 0xf6bb4b60, 0xbebfbc70,
     0x289b7ec6, 0xeaa127fa, 0xd4ef3085, 0x04881d05,
     0xd9d4d039, 0xe6db99e5, 0x1fa27cf8, 0xc4ac5665,
     0xf4292244, 0x432aff97, 0xab9423a7, 0xfc93a039,
     0x655b59c3, 0x8f0ccc92, 0xffeff47d, 0x85845dd1,
     0x6fa87e4f, 0xfe2ce6e0, 0xa3014314, 0x4e0811a1,
     0xf7537e82, 0xbd3af235, 0x2ad7d2bb, 0xeb86d391]

/-- `roundtab`, kernel/md5.c:52-72: pairs `(k, s)` -/
def roundtab : List (Nat × Nat) := [
     (  0,  7), (  1, 12), (  2, 17), (  3, 22),
     (  4,  7), (  5, 12), (  6, 17), (  7, 22),
     (  8,  7), (  9, 12), ( 10, 17), ( 11, 22),
     ( 12,  7), ( 13, 12), ( 14, 17), ( 15, 22),
     (  1,  5), (  6,  9), ( 11, 14), (  0, 20),
     (  5,  5), ( 10,  9), ( 15, 14), (  4, 20),
     (  9,  5), ( 14,  9), (  3, 14), (  8, 20),
     ( 13,  5), (  2,  9), (  7, 14), ( 12, 20),
     (  5,  4), (  8, 11), ( 11, 16), ( 14, 23),
     (  1,  4), (  4, 11), (  7, 16), ( 10, 23),
     ( 13,  4), (  0, 11), (  3, 16), (  6, 23),
     (  9,  4), ( 12, 11), ( 15, 16), (  2, 23),
     (  0,  6), (  7, 10), ( 14, 15), (  5, 21),
     ( 12,  6), (  3, 10), ( 10, 15), (  1, 21),
     (  8,  6), ( 15, 10), (  6, 15), ( 13, 21),
     (  4,  6), ( 11, 10), (  2, 15), (  9, 21)]

/-- `rol`, kernel/md5.c:74 -/
def rol {w : Nat} (a : BitVec w) (s : Nat) : BitVec w := (a <<< s) ||| (a >>> (32 - s))

/-- `md5sig`, kernel/ifftw.h:392 -/
structure Sig (w : Nat) where
  s0 : BitVec w
  s1 : BitVec w
  s2 : BitVec w
  s3 : BitVec w
  deriving DecidableEq, Repr

/-- the body of the 64-step loop, kernel/md5.c:89-102, on the variables `(a, b, c, d)` -/
def round {w : Nat} (x : Nat → BitVec w) (q : Sig w) (i : Nat) : Sig w :=
  let msk : BitVec w := BitVec.ofNat w 0xffffffff
  let a := q.s0; let b := q.s1; let c := q.s2; let d := q.s3
  let p := roundtab.getD i (0, 0)
  let a := match i >>> 4 with
    | 0 => a + ((b &&& c) ||| (~~~b &&& d))
    | 1 => a + ((b &&& d) ||| (c &&& ~~~d))
    | 2 => a + (b ^^^ c ^^^ d)
    | 3 => a + (c ^^^ (b ||| ~~~d))
    | _ => a
  let a := a + BitVec.ofNat w (sintab.getD i 0)
  let a := a + x p.1
  let a := a &&& msk
  let t := b + rol a p.2
  { s0 := d, s1 := t, s2 := b, s3 := c }

/-- `x[i]`, kernel/md5.c:83-86: computed in 32-bit `unsigned`, then converted to `md5uint` -/
def encodeWord (w : Nat) (data : Nat → Byte) (i : Nat) : BitVec w :=
  let p := fun j => (data (4 * i + j)).setWidth 32
  ((p 0) ||| ((p 1) <<< 8) ||| ((p 2) <<< 16) ||| ((p 3) <<< 24)).setWidth w

/-- `doblock`, kernel/md5.c:76-107 -/
def doblock {w : Nat} (state : Sig w) (data : Nat → Byte) : Sig w :=
  let msk : BitVec w := BitVec.ofNat w 0xffffffff
  let x := encodeWord w data
  let r := (List.range 64).foldl (round x) state
  { s0 := (state.s0 + r.s0) &&& msk
    s1 := (state.s1 + r.s1) &&& msk
    s2 := (state.s2 + r.s2) &&& msk
    s3 := (state.s3 + r.s3) &&& msk }

/-- `md5`, kernel/ifftw.h:394-401; `unsigned l` is 32 bits -/
structure Ctx (w : Nat) where
  s : Sig w
  c : Nat → Byte
  l : BitVec 32

/-- `md5begin`, kernel/md5.c:110-117; the buffer `c` is uninitialised (arbitrary) -/
def begin (w : Nat) (junk : Nat → Byte) : Ctx w :=
  { s := { s0 := BitVec.ofNat w 0x67452301, s1 := BitVec.ofNat w 0xefcdab89,
           s2 := BitVec.ofNat w 0x98badcfe, s3 := BitVec.ofNat w 0x10325476 }
    c := junk
    l := 0 }

/-- `md5putc`, kernel/md5.c:119-123 -/
def putc {w : Nat} (p : Ctx w) (ch : Byte) : Ctx w :=
  let c := fun i => if i = p.l.toNat % 64 then ch else p.c i
  let l := p.l + 1
  if l.toNat % 64 = 0 then { s := doblock p.s c, c := c, l := l }
  else { s := p.s, c := c, l := l }

/-- `while ((p->l % 64) != 56) md5putc(p, 0x00);` kernel/md5.c:133; `none` = does not terminate -/
def padLoop {w : Nat} (p : Ctx w) : Option (Ctx w) :=
  if p.l.toNat % 64 ≠ 56 then padLoop (putc p 0x00) else some p
partial_fixpoint

/-- `for (i = 0; i < 8; ++i) { putc(l & 0xFF); l = l >> 8; }` kernel/md5.c:136-139 -/
def putLen {w : Nat} (p : Ctx w) (l : BitVec 32) : Nat → Ctx w
  | 0 => p
  | i + 1 => putLen (putc p ((l &&& 0xFF).setWidth 8)) (l >>> 8) i

/-- `md5end`, kernel/md5.c:125-142 -/
def «end» {w : Nat} (p : Ctx w) : Option (Ctx w) := do
  let l : BitVec 32 := 8 * p.l
  let p := putc p 0x80
  let p ← padLoop p
  return putLen p l 8

/-- `md5putb`, kernel/md5-1.c:24-30 -/
def putb {w : Nat} (p : Ctx w) (d : List Byte) : Ctx w := d.foldl putc p

/-- `md5puts`, kernel/md5-1.c:32-38: hashes the characters and the final NUL; `s` is the string without it -/
def puts {w : Nat} (p : Ctx w) : List Byte → Ctx w
  | [] => putc p 0
  | c :: cs => puts (putc p c) cs

end FFTW.Md5
