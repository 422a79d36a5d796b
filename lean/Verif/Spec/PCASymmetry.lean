import Mathlib.Data.Real.Basic
import Mathlib.Data.Matrix.Mul
import Mathlib.Logic.Equiv.Defs

/-!
# Specification: moving the samples
-/

namespace OpenML.Spec

/-- The samples in another order, with features multiplied by a matrix and shifted. -/
def movedSamples {n d : Nat} (σ : Equiv.Perm (Fin n)) (A : Matrix (Fin d) (Fin d) ℝ) (c : Fin d → ℝ) (X : Matrix (Fin n) (Fin d) ℝ) :
    Matrix (Fin n) (Fin d) ℝ :=
  Matrix.of fun i j => ∑ q, X (σ i) q * A q j + c j

end OpenML.Spec
