import Verif.Proofs.Md5

/-!
# C24: problem signatures are RFC 1321 MD5 digests, for every word width of at least 32 bits
-/

namespace FFTW.Props
open FFTW.Md5

/-- The signature words are the four RFC 1321 digest words, zero-extended to the width of `md5uint`. -/
def IsDigest {w : Nat} (s : Sig w) (m : List Byte) : Prop :=
  s.s0 = (RFC1321.md5 m).a.setWidth w ∧ s.s1 = (RFC1321.md5 m).b.setWidth w ∧
  s.s2 = (RFC1321.md5 m).c.setWidth w ∧ s.s3 = (RFC1321.md5 m).d.setWidth w

/-- C24: feeding any byte string (in any number of `md5putb` pieces) and finishing terminates and yields the
MD5 digest of the concatenation, whatever the uninitialised buffer contained, for any `md5uint` width `≥ 32`.
The length must be below 2^29 bytes because the code keeps the bit count in a 32-bit `unsigned`. -/
theorem C24_md5 {w : Nat} (hw : 32 ≤ w) (junk : Nat → Byte) (pieces : List (List Byte))
    (hlen : pieces.flatten.length < 2 ^ 29) :
    ∃ p, «end» (pieces.foldl putb (begin w junk)) = some p ∧ IsDigest p.s pieces.flatten := by
  have h : ∀ (pieces : List (List Byte)) (p : Ctx w) (bs : List Byte), Inv p bs → Inv (pieces.foldl putb p) (bs ++ pieces.flatten) := by
    intro pieces
    induction pieces with
    | nil => intro p bs h; simpa using h
    | cons d ds ih =>
      intro p bs h
      have := ih _ _ (putb_inv hw d h)
      simpa using this
  have h2 := h pieces _ _ (begin_inv hw junk)
  obtain ⟨p, h3, h4⟩ := end_spec hw h2 (by simpa using hlen)
  refine ⟨p, h3, ?_⟩
  rw [h4]
  simp [IsDigest, upS]

/-- C24: `md5puts` feeds the characters of the string and its terminating NUL -/
theorem C24_puts {w : Nat} (p : Ctx w) (s : List Byte) : puts p s = putb p (s ++ [0]) := puts_eq p s

/-- two message lengths: the digest is 4 words below 2^32 on every width (no garbage in high bits) -/
theorem C24_no_garbage {w : Nat} (hw : 32 ≤ w) (junk : Nat → Byte) (m : List Byte) (hlen : m.length < 2 ^ 29) :
    ∃ p, «end» (putb (begin w junk) m) = some p ∧
      p.s.s0.toNat < 2 ^ 32 ∧ p.s.s1.toNat < 2 ^ 32 ∧ p.s.s2.toNat < 2 ^ 32 ∧ p.s.s3.toNat < 2 ^ 32 := by
  obtain ⟨p, h, h0, h1, h2, h3⟩ := C24_md5 hw junk [m] (by simpa using hlen)
  refine ⟨p, by simpa using h, ?_⟩
  rw [h0, h1, h2, h3]
  refine ⟨?_, ?_, ?_, ?_⟩ <;>
  · rw [BitVec.toNat_setWidth]
    exact lt_of_le_of_lt (Nat.mod_le _ _) (BitVec.isLt _)

-- test of the specification itself: MD5("abc") = 900150983cd24fb0d6963f7d28e17f72, MD5("") = d41d8cd9...
example : let d := RFC1321.md5 [0x61, 0x62, 0x63]
    d.a = 0x98500190 ∧ d.b = 0xb04fd23c ∧ d.c = 0x7d3f96d6 ∧ d.d = 0x727fe128 := by decide +kernel
example : (RFC1321.md5 []).a = 0xd98c1dd4 := by decide +kernel
-- hypotheses satisfiable: a 100-byte message in two pieces, 64-bit words
example : ∃ p, «end» ([List.replicate 60 7, List.replicate 40 9].foldl putb (begin 64 fun _ => 0xAA)) = some p ∧
    IsDigest p.s (List.replicate 60 7 ++ List.replicate 40 9) := by
  simpa using C24_md5 (w := 64) (by norm_num) (fun _ => 0xAA) [List.replicate 60 7, List.replicate 40 9] (by simp)

end FFTW.Props
