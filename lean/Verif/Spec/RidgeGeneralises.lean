import Verif.Spec.LogStability
import Verif.Spec.Stability

/-!
# Specification: training sets drawn from a population of samples with targets
-/

namespace OpenML.Spec

/-- The features of the samples with the given numbers. -/
def drawnX {N n d : Nat} (pop : Fin N → (Fin d → ℝ) × ℝ) (z : Fin n → Fin N) : Matrix (Fin n) (Fin d) ℝ := Matrix.of fun i => (pop (z i)).1

/-- The targets of the samples with the given numbers. -/
def drawnY {N n d : Nat} (pop : Fin N → (Fin d → ℝ) × ℝ) (z : Fin n → Fin N) : Fin n → ℝ := fun i => (pop (z i)).2

/-- Mean of squares. -/
noncomputable def meanSquare {n : Nat} (r : Fin n → ℝ) : ℝ := (∑ i, r i ^ 2) / n

end OpenML.Spec
