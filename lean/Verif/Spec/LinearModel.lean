import Mathlib.Data.Real.Basic
import Mathlib.Algebra.BigOperators.Fin
import Mathlib.Data.Matrix.Mul

/-!
# Specification vocabulary for linear models
-/

namespace OpenML.Spec

/-- Sum of squared differences of predictions and targets. -/
def squaredError {n : Nat} (pred y : Fin n → ℝ) : ℝ := ∑ i, (pred i - y i) ^ 2

/-- Sum of squared weights. -/
def squaredNorm {p : Nat} (w : Fin p → ℝ) : ℝ := ∑ j, w j ^ 2

/-- `w` is the only minimiser of `f`. -/
def IsUniqueMinimiser {α : Type} (f : α → ℝ) (w : α) : Prop := ∀ v, v ≠ w → f w < f v

/-- The samples after a linear map of the features and a common shift. -/
def moveFeatures {m d : Nat} (A : Matrix (Fin d) (Fin d) ℝ) (c : Fin d → ℝ) (Z : Matrix (Fin m) (Fin d) ℝ) :
    Matrix (Fin m) (Fin d) ℝ := Z * A + Matrix.of fun _ => c

/-- The sum of the targets with the coefficients `c` equals the wanted value whenever the targets are the predictions of some weights, so it is
an unbiased estimate for targets with errors of mean zero. Its variance for independent errors of equal variance is proportional to the sum
of the squared coefficients. -/
def UnbiasedFor {α : Type} {n : Nat} (pred : α → Fin n → ℝ) (wanted : α → ℝ) (c : Fin n → ℝ) : Prop :=
  ∀ w, ∑ i, c i * pred w i = wanted w

end OpenML.Spec
