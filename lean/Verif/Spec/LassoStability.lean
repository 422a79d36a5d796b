import Verif.Spec.KMeans
import Verif.Spec.Loss

/-!
# Specification: how far from its optimum the lasso may stop
-/

namespace OpenML.Spec

/-- The mean of the squared differences of the entries of two vectors. -/
noncomputable def meanSquaredGap (p q : List ℝ) : ℝ := sqDist p q / p.length

/-- The mean of the squared targets, divided by two: the error of the weights zero. -/
noncomputable def halfMeanSquare (y : List ℝ) : ℝ := (y.map fun a => a ^ 2).sum / (2 * y.length)

/-- How much the objective of the lasso with `d` features may exceed its minimum after `n` iterations with step constant `beta`, for
targets `y`. -/
noncomputable def lassoExcess (d : Nat) (beta lambda : ℝ) (n : Nat) (y : List ℝ) : ℝ :=
  2 * d * max (halfMeanSquare y) (beta * (2 * (halfMeanSquare y / lambda)) ^ 2) / n

end OpenML.Spec
