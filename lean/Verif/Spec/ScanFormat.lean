import Mathlib.Data.List.Basic
import Verif.Model.Scan

/-!
# What it means for a text to fit a scan format (for C21)
-/

namespace FFTW.Scan.Spec

/-- white space: character codes 0 to 32 -/
def Blank (bl : List Int) : Prop := ∀ c ∈ bl, 0 ≤ c ∧ c ≤ 32

/-- `c` is the digit `d` (letters count from 10, in any base) -/
def Digit (c d : Int) : Prop := (48 ≤ c ∧ c ≤ 57 ∧ d = c - 48) ∨ (65 ≤ c ∧ c ≤ 90 ∧ d = c - 55) ∨ (97 ≤ c ∧ c ≤ 122 ∧ d = c - 87)

/-- `t` is a nonempty row of digits with value `x` -/
def DigitsOf (base : Int) (t : List Int) (x : Int) : Prop :=
  t ≠ [] ∧ ∃ ds : List Int, List.Forall₂ Digit t ds ∧ x = ds.foldl (fun x d => x * base + d) 0

/-- `t` is an optionally signed number with value `x` -/
def Num (base : Int) (t : List Int) (x : Int) : Prop :=
  DigitsOf base t x ∨ (∃ t', t = 43 :: t' ∧ DigitsOf base t' x) ∨ ∃ t' y, t = 45 :: t' ∧ DigitsOf base t' y ∧ x = -y

/-- the text `t` fits the format, the conversions giving the values `vs`; `maxs` are the maximal lengths for `%*s` -/
inductive Fits : List Char → List Int → List Int → List Res → Prop
  | nil {maxs : List Int} : Fits [] maxs [] []
  /-- a blank in the format stands for any amount of white space -/
  | blank {c : Char} {fmt : List Char} {maxs bl t : List Int} {vs : List Res} : c.toNat ≤ 32 → Blank bl → Fits fmt maxs t vs →
      Fits (c :: fmt) maxs (bl ++ t) vs
  /-- white space may precede a parenthesis -/
  | paren {c : Char} {fmt : List Char} {maxs bl t : List Int} {vs : List Res} : c = '(' ∨ c = ')' → Blank bl → Fits fmt maxs t vs →
      Fits (c :: fmt) maxs (bl ++ Print.chr c :: t) vs
  /-- other characters stand for themselves -/
  | lit {c : Char} {fmt : List Char} {maxs t : List Int} {vs : List Res} : c ≠ '%' → Fits fmt maxs t vs →
      Fits (c :: fmt) maxs (Print.chr c :: t) vs
  /-- a name of at most `n` characters (white space and parentheses excluded) -/
  | str {n : Int} {fmt : List Char} {maxs s t : List Int} {vs : List Res} : (s.length : Int) ≤ n →
      (∀ c ∈ s, ¬ (0 ≤ c ∧ c ≤ 32) ∧ c ≠ Print.chr '(' ∧ c ≠ Print.chr ')') → Fits fmt maxs t vs →
      Fits ('%' :: '*' :: 's' :: fmt) (n :: maxs) (s ++ t) (.str (s.map (· % 256)) :: vs)
  /-- a name without maximal length: nothing is read -/
  | str0 {fmt : List Char} {maxs t : List Int} {vs : List Res} : Fits fmt maxs t vs → Fits ('%' :: 's' :: fmt) maxs t (.str [] :: vs)
  | dec {x : Int} {fmt : List Char} {maxs a t : List Int} {vs : List Res} : Num 10 a x → Fits fmt maxs t vs →
      Fits ('%' :: 'd' :: fmt) maxs (a ++ t) (.int (toInt32 x) :: vs)
  | hex {x : Int} {fmt : List Char} {maxs a t : List Int} {vs : List Res} : Num 16 a x → Fits fmt maxs t vs →
      Fits ('%' :: 'x' :: fmt) maxs (a ++ t) (.int (toInt32 x) :: vs)
  | md5 {x : Int} {fmt : List Char} {maxs a t : List Int} {vs : List Res} : Num 16 a x → Fits fmt maxs t vs →
      Fits ('%' :: 'M' :: fmt) maxs (a ++ t) (.md5 (x % 2 ^ 32).toNat :: vs)

end FFTW.Scan.Spec
