import Verif.Spec.PCA
import Verif.Spec.LowRank

/-!
# Specification: the size of a difference of two data sets
-/

namespace OpenML.Spec

/-- The square root of the sum of squares of all entries. -/
noncomputable def entrySize {m n : Nat} (A : Matrix (Fin m) (Fin n) ℝ) : ℝ := Real.sqrt (entrySquares A)

/-- The sum of the variances of all columns. -/
noncomputable def totalVar {n d : Nat} (X : Matrix (Fin n) (Fin d) ℝ) : ℝ := ∑ j, sampleVar fun i => X i j

end OpenML.Spec
