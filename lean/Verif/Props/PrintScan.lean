import Verif.Proofs.PrintScan

/-!
# C22 (export buffers), C23 (numbers survive print/scan), C46 (name buffer)
-/

namespace FFTW.Props
open FFTW.Print FFTW.Scan

/-- C22: for every sequence of exported characters, the two-pass `export_wisdom_to_string` performs no store outside the
block it allocated, and the block ends up holding exactly those characters followed by one NUL
(every cell of the block is initialised: there is no uninitialised tail). -/
theorem C22_export_to_string (cs : List Int) : exportToString cs = some (cs.map some ++ [some 0]) :=
  exportToString_some cs

/-- C22: the 256-byte buffered file printer never overruns its buffer and writes exactly the same characters. -/
theorem C22_export_to_file (cs : List Int) : exportToFile cs = some cs := exportToFile_some cs

example : (exportToFile (List.replicate 1000 65)).isSome := by rw [C22_export_to_file]; rfl

/-- the input that a scanner has still to deliver is `l` -/
def Delivers (sc : Scanner) (l : List Int) : Prop := sc.view = l

/-- `Delivers` means what it says: the characters come out one by one, then `EOF`. -/
theorem delivers_iff (sc : Scanner) : ∀ l, Delivers sc l → EOF ∉ l →
    match l with
    | [] => (getc sc).1 = EOF
    | c :: l' => (getc sc).1 = c ∧ Delivers (getc sc).2 l' := by
  intro l h _
  match l, h with
  | [], h => exact (getc_nil h).1
  | c :: l', h => exact ⟨(getc_cons h).1, (getc_cons h).2.1⟩

/-- C23: an unsigned value printed in base 2…16 with any minimal width (`%u %x %M`) is read back as itself, and
the scanner is left exactly after it, provided the number is not immediately followed by a letter or digit. -/
theorem C23_unsigned (b : Nat) (hb : 2 ≤ b) (hb16 : b ≤ 16) (i : Nat) (hi : (i : Int) ≤ INT_MAX) (width : Int) :
    ∃ cs, putulong i b width = some cs ∧ ∀ (rest : List Int) (sc : Scanner), Stops rest → Delivers sc (cs ++ rest) →
      ∃ sc', getlong sc b = some ((i : Int), true, sc') ∧ Delivers sc' rest :=
  putulong_getlong b hb hb16 i hi width

/-- C23: an `int` (or `INT`) printed with `%d`/`%D` is read back as itself. -/
theorem C23_signed (i : Int) (hi : -INT_MAX ≤ i) (hi' : i ≤ INT_MAX) :
    ∃ cs, putint i = some cs ∧ ∀ (rest : List Int) (sc : Scanner), Stops rest → Delivers sc (cs ++ rest) →
      ∃ sc', getlong sc 10 = some (i, true, sc') ∧ Delivers sc' rest :=
  putint_getlong i hi hi'

/-- C23: the most negative `INT` cannot be printed: `i = -i` overflows (kernel/print.c:52). -/
theorem C23_signed_min : putint (-INT_MAX - 1) = none := by decide

example : Stops (")".toList.map chr) := by
  intro c cs h
  simp only [String.toList] at h
  rcases List.cons.inj h with ⟨rfl, _⟩
  decide

/-- C46: whatever the input, reading a name with limit `maxlen` into an array of at least `maxlen + 1` chars performs no
out-of-bounds store; the array then holds at most `maxlen` characters followed by a NUL, the rest is untouched. -/
theorem C46_mygets (maxlen : Nat) (sc : Scanner) (buf : CBuf) (hbuf : maxlen + 1 ≤ buf.length) :
    ∃ (name : List Int) (sc' : Scanner), name.length ≤ maxlen ∧
      mygetsBufLoop sc buf 0 maxlen = some (name.map some ++ some 0 :: buf.drop (name.length + 1), sc') := by
  refine ⟨(mygetsLoop sc 0 maxlen).1, (mygetsLoop sc 0 maxlen).2, ?_, ?_⟩
  · have := mygetsLoop_len maxlen maxlen sc 0 (by omega); omega
  · have := mygetsBufLoop_some maxlen maxlen sc 0 [] buf (by omega) rfl (by omega) (by omega)
    simpa using this

/-- C46: and this is what the list-level scanner used by the wisdom model returns. -/
theorem C46_mygets_refines (maxlen : Nat) (sc : Scanner) (buf : CBuf) (hbuf : maxlen + 1 ≤ buf.length) :
    mygetsBufLoop sc buf 0 maxlen = some ((mygets sc maxlen).1.map some ++ some 0 :: buf.drop ((mygets sc maxlen).1.length + 1),
      (mygets sc maxlen).2) := by
  simpa [mygets] using mygetsBufLoop_some maxlen maxlen sc 0 [] buf (by omega) rfl (by omega) (by omega)

/-- C46: one char less would overrun, so the bound is tight. -/
theorem C46_tight : mygetsBufLoop (mkScanner (List.replicate 4 (chr 'a'))) (List.replicate 4 none) 0 4 = none := by
  simp [mygetsBufLoop, mkScanner, getc, isspace, CBuf.store, List.replicate]
  decide

end FFTW.Props
