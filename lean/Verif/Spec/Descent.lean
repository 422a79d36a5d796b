import Mathlib.Data.Real.Basic
import Mathlib.Algebra.BigOperators.Group.List.Basic

/-!
# Specifications for gradient descent on smooth losses
-/

namespace OpenML.Spec

/-- Sum of all squared features. -/
def featureMass (rows : List (List ℝ)) : ℝ := (rows.map fun x => (x.map fun a => a ^ 2).sum).sum

/-- Bound on the second derivatives of a mean loss with ridge term, if the loss of a sample has second derivatives up to `c` with
respect to the score. -/
noncomputable def steepness (c lambda : ℝ) (rows : List (List ℝ)) : ℝ := (c * featureMass rows + lambda) / rows.length

/-- Squared distance of two weight vectors. -/
def weightDist (v w : List ℝ) : ℝ := (List.zipWith (fun a b => (a - b) ^ 2) v w).sum

end OpenML.Spec
