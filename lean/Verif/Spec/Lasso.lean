import Mathlib.Data.Real.Basic
import Mathlib.Algebra.BigOperators.Group.List.Basic

/-!
# Specification: sparse weights
-/

namespace OpenML.Spec

/-- How many entries are not zero. -/
def nonzeros {α : Type} [Zero α] [DecidableEq α] (w : List α) : Nat := (w.filter fun a => a ≠ 0).length

/-- Mean product of feature `j` and target. -/
noncomputable def correlation (rows : List (List ℝ)) (y : List ℝ) (j : Nat) : ℝ :=
  ((rows.zip y).map fun p => p.1.getD j 0 * p.2).sum / rows.length

end OpenML.Spec
