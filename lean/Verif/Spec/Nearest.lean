import Mathlib.Algebra.Order.Field.Basic
import Mathlib.Algebra.Order.Floor.Ring
import Mathlib.Data.Set.Basic
import Mathlib.Data.Int.Log

/-!
# Specification: rounding to nearest

`F` is a set of representable numbers (a format) of an ordered field.
-/

namespace OpenML.Spec

variable {α : Type} [Field α] [LinearOrder α]

/-- `rnd` returns a number of the format `F` at least as near as any other; ties may be broken in any way. -/
structure RoundsToNearest (F : Set α) (rnd : α → α) : Prop where
  mem : ∀ x, rnd x ∈ F
  near : ∀ x, ∀ y ∈ F, |rnd x - x| ≤ |y - x|

/-- Doubles and halves of numbers of the format are in the format: neither overflow nor underflow. -/
structure ScalesByTwo (F : Set α) : Prop where
  double : ∀ x ∈ F, 2 * x ∈ F
  half : ∀ x ∈ F, x / 2 ∈ F

/-- The numbers with `p` binary digits and any exponent; `p = 53` is `double`, `p = 24` is `float`. -/
def binaryNumbers (α : Type) [Field α] (p : Nat) : Set α := {x | ∃ m e : ℤ, |m| ≤ 2 ^ p ∧ x = m * (2 : α) ^ e}

/-- The nearest integer, the even one if there are two. -/
def nearEven [FloorRing α] (z : α) : ℤ :=
  if Int.fract z < 1 / 2 then ⌊z⌋ else if 1 / 2 < Int.fract z then ⌊z⌋ + 1 else if ⌊z⌋ % 2 = 0 then ⌊z⌋ else ⌊z⌋ + 1

/-- Rounding to `p` binary digits, ties to even: the default of processors. -/
def binaryEven [FloorRing α] [IsStrictOrderedRing α] (p : Nat) (x : α) : α :=
  (nearEven (x / 2 ^ (Int.log 2 |x| + 1 - p)) : α) * 2 ^ (Int.log 2 |x| + 1 - p)

end OpenML.Spec
