import Verif.Spec.LinearModel
import Mathlib.Analysis.SpecialFunctions.Pow.NNReal

/-!
# Specification: lengths of weights and of samples
-/

namespace OpenML.Spec

/-- Euclidean length. -/
noncomputable def size {p : Nat} (w : Fin p → ℝ) : ℝ := Real.sqrt (squaredNorm w)

/-- Euclidean length of a sample; with intercept it has one more entry, equal to one. -/
noncomputable def sampleSize {d : Nat} (b : Bool) (x : Fin d → ℝ) : ℝ := Real.sqrt (squaredNorm x + if b then 1 else 0)

end OpenML.Spec
