import Verif.Spec.LinAlg
import Mathlib.Analysis.SpecialFunctions.Log.Basic
import Mathlib.Analysis.SpecialFunctions.Trigonometric.Basic

/-!
# Specification: thin singular value decomposition, sample variance and covariance, normal distribution
-/

namespace OpenML.Spec

open Matrix

/-- Contract of the thin decompositions of Eigen: orthonormal columns, non-negative values in decreasing order. -/
structure IsThinSVD {m n k : Nat} (x : Matrix (Fin m) (Fin n) ℝ) (U : Matrix (Fin m) (Fin k) ℝ) (s : Fin k → ℝ)
    (V : Matrix (Fin n) (Fin k) ℝ) : Prop where
  left : Uᵀ * U = 1
  right : Vᵀ * V = 1
  nonneg : ∀ i, 0 ≤ s i
  sorted : Antitone s
  product : x = U * Matrix.diagonal s * Vᵀ

/-- The data minus the column means. -/
noncomputable def centred {n d : Nat} (X : Matrix (Fin n) (Fin d) ℝ) : Matrix (Fin n) (Fin d) ℝ :=
  Matrix.of fun i j => X i j - columnMean X j

/-- The unbiased covariance of two columns. -/
noncomputable def sampleCov {n d : Nat} (X : Matrix (Fin n) (Fin d) ℝ) : Matrix (Fin d) (Fin d) ℝ :=
  Matrix.of fun i j => (∑ k, (X k i - columnMean X i) * (X k j - columnMean X j)) / ((n : ℝ) - 1)

/-- The unbiased variance of a list of numbers. -/
noncomputable def sampleVar {n : Nat} (x : Fin n → ℝ) : ℝ := (∑ k, (x k - (∑ i, x i) / n) ^ 2) / ((n : ℝ) - 1)

/-- The logarithm of the density of the normal distribution. -/
noncomputable def logNormal {d : Nat} (μ : Fin d → ℝ) (C : Matrix (Fin d) (Fin d) ℝ) (x : Fin d → ℝ) : ℝ :=
  -(1 / 2) * ((x - μ) ⬝ᵥ (C⁻¹ *ᵥ (x - μ)) + Real.log C.det + (d : ℝ) * Real.log (2 * Real.pi))

end OpenML.Spec
