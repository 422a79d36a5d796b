import Mathlib.Data.Real.Basic
import Mathlib.LinearAlgebra.Matrix.Notation
import Verif.Spec.KMeans

/-!
# Specification: points of a reduced space
-/

namespace OpenML.Spec

/-- The rows of a matrix as lists. -/
def rowLists {n d : Nat} (X : Matrix (Fin n) (Fin d) ℝ) : List (List ℝ) := List.ofFn fun i => List.ofFn fun j => X i j

/-- The point of the original space that belongs to a point of the reduced space: an offset plus the combination of the components. -/
def backTo {k d : Nat} (μ : Fin d → ℝ) (C : Matrix (Fin k) (Fin d) ℝ) (c : List ℝ) : List ℝ :=
  List.ofFn fun j => μ j + ∑ i : Fin k, c.getD i 0 * C i j

end OpenML.Spec
