import Mathlib.Algebra.Order.Field.Basic
import Mathlib.Algebra.BigOperators.Group.List.Basic
import Mathlib.Analysis.SpecialFunctions.Trigonometric.Basic

/-!
# Specification: classes of a labelled data set, normal density
-/

namespace OpenML.Spec

variable {α : Type} [Field α] [LinearOrder α]

/-- The rows with a label. -/
def classRows (X : List (List α)) (y : List α) (b : α) : List (List α) :=
  ((X.zip y).filter fun e => e.2 = b).map Prod.fst

/-- The values of one feature. -/
def featureOf (rows : List (List α)) (f : Nat) : List α := rows.map fun r => r.getD f 0

/-- The density of the normal distribution with mean `m` and variance `v`. -/
noncomputable def normalPdf (m v x : ℝ) : ℝ := 1 / Real.sqrt (2 * Real.pi * v) * Real.exp (-(x - m) ^ 2 / (2 * v))

/-- The joint density of independent normal features. -/
noncomputable def independentPdf (mean var x : List ℝ) : ℝ :=
  (List.zipWith (fun mv a => normalPdf mv.1 mv.2 a) (mean.zip var) x).prod

end OpenML.Spec
