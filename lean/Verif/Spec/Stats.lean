import Mathlib.Algebra.Order.Field.Basic
import Mathlib.Algebra.BigOperators.Group.List.Basic
import Mathlib.Data.List.Count
import Mathlib.Data.List.Sort

/-!
# Specification: textbook statistics and `std::nth_element`
-/

namespace OpenML.Spec

variable {α : Type} [Field α] [LinearOrder α]

/-- Arithmetic mean. -/
def average (l : List α) : α := l.sum / (l.length : α)

/-- Mean squared deviation from the mean. -/
def meanSquaredDeviation (l : List α) : α := average (l.map fun a => (a - average l) ^ 2)

/-- Contract of `std::nth_element(first, first + k, last)`: a rearrangement with nothing larger before position `k` and
nothing smaller behind it. -/
structure IsNthElement (nth : List α → Nat → List α) : Prop where
  perm : ∀ l k, k < l.length → (nth l k).Perm l
  before : ∀ l k i (a b : α), k < l.length → i < k → (nth l k)[i]? = some a → (nth l k)[k]? = some b → a ≤ b
  behind : ∀ l k i (a b : α), k < l.length → k < i → (nth l k)[i]? = some a → (nth l k)[k]? = some b → b ≤ a

/-- `m` splits the list in the middle: at most half of the entries are smaller and at most half are larger. -/
def IsMedian (l : List α) (m : α) : Prop :=
  2 * (l.filter fun a => a < m).length ≤ l.length ∧ 2 * (l.filter fun a => m < a).length ≤ l.length

/-- `a` occurs `m` times and nothing occurs more often. -/
def IsMode (l : List α) (a : α) (m : Nat) : Prop := a ∈ l ∧ l.count a = m ∧ ∀ b, l.count b ≤ m

end OpenML.Spec
