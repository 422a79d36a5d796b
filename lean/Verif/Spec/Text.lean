import Mathlib.Data.Nat.Digits.Defs
import Mathlib.Data.Rat.Defs
import Mathlib.Algebra.Order.Field.Basic

/-!
# What it means that a text shows a table of numbers
-/

namespace OpenML.Spec

/-- Blank characters: space, tab, newline, carriage return, vertical tab and form feed. -/
def Blank (c : Char) : Prop := c ∈ [' ', '\t', '\n', '\r', Char.ofNat 11, Char.ofNat 12]

/-- The ten digits. -/
def IsDigit (c : Char) : Prop := c ∈ "0123456789".toList

/-- A nonempty string of digits and the natural number it denotes, the last digit being the one of lowest value. -/
def Digits (s : List Char) (n : Nat) : Prop :=
  s ≠ [] ∧ (∀ c ∈ s, IsDigit c) ∧ n = Nat.ofDigits 10 (s.reverse.map fun c => c.toNat - '0'.toNat)

/-- An optional sign and the factor it stands for. -/
def Sign (s : List Char) (z : Int) : Prop := s = [] ∧ z = 1 ∨ s = ['+'] ∧ z = 1 ∨ s = ['-'] ∧ z = -1

/-- Text of an integer: an optional sign and digits. -/
def IntText (s : List Char) (z : Int) : Prop :=
  ∃ sg ds f n, s = sg ++ ds ∧ Sign sg f ∧ Digits ds n ∧ z = f * n

/-- Text of an exponent: nothing, or the letter e with an integer. -/
def ExpText (s : List Char) (z : Int) : Prop :=
  s = [] ∧ z = 0 ∨ ∃ c t, (c = 'e' ∨ c = 'E') ∧ IntText t z ∧ s = c :: t

/-- Text of a decimal number: an optional sign, digits with an optional point among or around them, an optional exponent. -/
def DecText (s : List Char) (q : ℚ) : Prop :=
  ∃ (sg whole frac ex : List Char) (f z : Int) (n : Nat), Sign sg f ∧ Digits (whole ++ frac) n ∧ ExpText ex z ∧
    (s = sg ++ whole ++ '.' :: frac ++ ex ∨ frac = [] ∧ s = sg ++ whole ++ ex) ∧
    q = f * n / (10 : ℚ) ^ frac.length * (10 : ℚ) ^ z

/-- A line that shows numbers, each written as `T` allows, with blanks around and between them. -/
inductive LineText {α : Type} (T : List Char → α → Prop) : List Char → List α → Prop
  | done {b} : (∀ c ∈ b, Blank c) → LineText T b []
  | number {b s rest a l} : (∀ c ∈ b, Blank c) → T s a → LineText T rest l → (∀ c, rest.head? = some c → Blank c) →
      LineText T (b ++ s ++ rest) (a :: l)

/-- A text that shows a table line by line; the last line may or may not end with a newline. -/
inductive TableText {α : Type} (T : List Char → α → Prop) : List Char → List (List α) → Prop
  | done : TableText T [] []
  | last {s r} : s ≠ [] → '\n' ∉ s → LineText T s r → TableText T s [r]
  | line {s r rest t} : '\n' ∉ s → LineText T s r → TableText T rest t → TableText T (s ++ '\n' :: rest) (r :: t)

/-- The text with each newline preceded by a carriage return. -/
def withCarriageReturns (s : List Char) : List Char := s.flatMap fun c => if c = '\n' then ['\r', '\n'] else [c]

end OpenML.Spec
