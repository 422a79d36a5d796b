import Mathlib.Algebra.Field.Basic
import Mathlib.Algebra.BigOperators.Group.List.Basic

/-!
# Specification: training error
-/

namespace OpenML.Spec

/-- The sum of squared differences between targets and predictions. -/
def totalSquaredError {α : Type} [Field α] (y predicted : List α) : α := (List.zipWith (fun a b => (a - b) ^ 2) y predicted).sum

/-- The number of samples whose predicted position points to their own label. -/
def numCorrect {α : Type} [DecidableEq α] (classes y : List α) (predicted : List Nat) : Nat :=
  ((y.zip predicted).filter fun e => classes[e.2]? = some e.1).length

end OpenML.Spec
