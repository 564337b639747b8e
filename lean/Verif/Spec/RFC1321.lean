/-!
# RFC 1321: the MD5 message digest (independent specification)

Written from the RFC: padding (3.1), length (3.2), buffer (3.3), 16-word blocks (3.4).  Word operations are on
`BitVec 32`.
-/

namespace RFC1321

abbrev Byte := BitVec 8
abbrev Word := BitVec 32

/-- section 3.4: the four auxiliary functions -/
def F (x y z : Word) : Word := (x &&& y) ||| (~~~x &&& z)
def G (x y z : Word) : Word := (x &&& z) ||| (y &&& ~~~z)
def H (x y z : Word) : Word := x ^^^ y ^^^ z
def I (x y z : Word) : Word := y ^^^ (x ||| ~~~z)

/-- section 3.4: the table `T[1..64]`, `T[i] = ⌊4294967296 · |sin i|⌋` -/
def T : List Word := [
  3614090360, 3905402710, 606105819, 3250441966, 4118548399, 1200080426, 2821735955, 4249261313,
  1770035416, 2336552879, 4294925233, 2304563134, 1804603682, 4254626195, 2792965006, 1236535329,
  4129170786, 3225465664, 643717713, 3921069994, 3593408605, 38016083, 3634488961, 3889429448,
  568446438, 3275163606, 4107603335, 1163531501, 2850285829, 4243563512, 1735328473, 2368359562,
  4294588738, 2272392833, 1839030562, 4259657740, 2763975236, 1272893353, 4139469664, 3200236656,
  681279174, 3936430074, 3572445317, 76029189, 3654602809, 3873151461, 530742520, 3299628645,
  4096336452, 1126891415, 2878612391, 4237533241, 1700485571, 2399980690, 4293915773, 2240044497,
  1873313359, 4264355552, 2734768916, 1309151649, 4149444226, 3174756917, 718787259, 3951481745]

/-- index of the message word used in step `i` (0..63) -/
def kOf (i : Nat) : Nat :=
  match i / 16 with
  | 0 => i % 16
  | 1 => (5 * i + 1) % 16
  | 2 => (3 * i + 5) % 16
  | _ => (7 * i) % 16

/-- rotation amount of step `i` -/
def sOf (i : Nat) : Nat :=
  match i / 16 with
  | 0 => [7, 12, 17, 22].getD (i % 4) 0
  | 1 => [5, 9, 14, 20].getD (i % 4) 0
  | 2 => [4, 11, 16, 23].getD (i % 4) 0
  | _ => [6, 10, 15, 21].getD (i % 4) 0

/-- auxiliary function of step `i` -/
def fOf (i : Nat) : Word → Word → Word → Word :=
  match i / 16 with
  | 0 => F
  | 1 => G
  | 2 => H
  | _ => I

structure State where
  a : Word
  b : Word
  c : Word
  d : Word

/-- one operation `a = b + ((a + f(b,c,d) + X[k] + T[i]) <<< s)` followed by the rotation of roles -/
def step (X : Nat → Word) (q : State) (i : Nat) : State :=
  { a := q.d
    b := q.b + (q.a + fOf i q.b q.c q.d + X (kOf i) + T.getD i 0).rotateLeft (sOf i)
    c := q.b
    d := q.c }

/-- little-endian word -/
def le32 (b0 b1 b2 b3 : Byte) : Word :=
  b0.setWidth 32 ||| (b1.setWidth 32 <<< 8) ||| (b2.setWidth 32 <<< 16) ||| (b3.setWidth 32 <<< 24)

/-- process one 64-byte block -/
def block (q : State) (M : Nat → Byte) : State :=
  let X := fun k => le32 (M (4 * k)) (M (4 * k + 1)) (M (4 * k + 2)) (M (4 * k + 3))
  let r := (List.range 64).foldl (step X) q
  { a := q.a + r.a, b := q.b + r.b, c := q.c + r.c, d := q.d + r.d }

/-- 3.1, 3.2: append a 1 bit, zeros up to 448 mod 512 bits, and the 64-bit bit length (low-order first) -/
def pad (m : List Byte) : List Byte :=
  m ++ [0x80] ++ List.replicate ((119 - m.length % 64) % 64) 0 ++
    (List.range 8).map fun i => BitVec.ofNat 8 ((8 * m.length % 2 ^ 64) / 256 ^ i)

def init : State := { a := 0x67452301, b := 0xefcdab89, c := 0x98badcfe, d := 0x10325476 }

/-- process the complete 64-byte blocks of a byte string -/
def blocks (m : List Byte) : State :=
  (List.range (m.length / 64)).foldl (fun q j => block q fun i => m.getD (64 * j + i) 0) init

/-- the digest, as the four words A, B, C, D -/
def md5 (m : List Byte) : State := blocks (pad m)

end RFC1321
