import Mathlib.Analysis.SpecialFunctions.Exp

/-!
# Specification of a graph Laplacian
-/

namespace OpenML.Spec

/-- Entry of a table of numbers. -/
def tableEntry (rows : List (List ℝ)) (i j : Nat) : ℝ := (rows.getD i []).getD j 0

/-- Gaussian similarity of two points of `m` coordinates. -/
noncomputable def similarity {m : Nat} (gamma : ℝ) (a b : Fin m → ℝ) : ℝ := Real.exp (-(∑ k, (a k - b k) ^ 2) / (2 * gamma ^ 2))

end OpenML.Spec
