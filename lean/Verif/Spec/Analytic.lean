import Mathlib.Analysis.SpecialFunctions.Log.Basic

/-!
# Specification: logarithm of a sum of exponentials, softmax
-/

namespace OpenML.Spec

/-- The sum of the exponentials. -/
noncomputable def sumExp (l : List ℝ) : ℝ := (l.map Real.exp).sum

/-- Each exponential divided by their sum. -/
noncomputable def softmaxOf (l : List ℝ) : List ℝ := l.map fun a => Real.exp a / sumExp l

/-- `m` is the greatest entry. -/
def IsMaximum (l : List ℝ) (m : ℝ) : Prop := m ∈ l ∧ ∀ a ∈ l, a ≤ m

end OpenML.Spec
