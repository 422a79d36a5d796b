import Mathlib.Data.Real.Basic
import Mathlib.LinearAlgebra.Matrix.Rank

/-!
# Specification: approximation by matrices of low rank
-/

namespace OpenML.Spec

/-- The sum of the squares of all entries. -/
def entrySquares {m n : Nat} (A : Matrix (Fin m) (Fin n) ℝ) : ℝ := ∑ i, ∑ j, A i j ^ 2

/-- No matrix of rank at most `k`, shifted by any vector, is nearer to `X` than `B`. -/
def BestAffine {m n : Nat} (k : Nat) (X B : Matrix (Fin m) (Fin n) ℝ) : Prop :=
  ∀ (c : Fin n → ℝ) (A : Matrix (Fin m) (Fin n) ℝ), A.rank ≤ k →
    entrySquares (X - B) ≤ entrySquares (X - (Matrix.of fun i j => c j + A i j))

/-- No matrix of rank at most `k` is nearer to `X` than `B`. -/
def BestLinear {m n : Nat} (k : Nat) (X B : Matrix (Fin m) (Fin n) ℝ) : Prop :=
  ∀ A : Matrix (Fin m) (Fin n) ℝ, A.rank ≤ k → entrySquares (X - B) ≤ entrySquares (X - A)

end OpenML.Spec
