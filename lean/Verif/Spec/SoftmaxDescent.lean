import Verif.Model.Eigen
import Verif.Spec.Descent

/-!
# Specifications for gradient descent with a matrix of weights
-/

namespace OpenML.Spec

/-- Sum of the squared entries. -/
def matrixMass (W : DMat ℝ) : ℝ := (W.rows.map fun r => (r.map fun a => a ^ 2).sum).sum

/-- Squared distance of two matrices of weights. -/
def matrixDist (V W : DMat ℝ) : ℝ := (List.zipWith weightDist V.rows W.rows).sum

/-- One row per feature, one column per class. -/
def Shaped (d k : Nat) (W : DMat ℝ) : Prop := W.ncols = k ∧ W.rows.length = d ∧ ∀ r ∈ W.rows, r.length = k

end OpenML.Spec
