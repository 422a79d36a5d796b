import Mathlib.Algebra.BigOperators.Fin
import Mathlib.Data.List.OfFn

/-!
# Specification: similarity transformations of points
-/

namespace OpenML.Spec

open scoped BigOperators

/-- The matrix has orthonormal columns: a rotation, a reflection, a reordering of the coordinates, … -/
def IsOrthogonal {α : Type} [CommRing α] {d : Nat} (Q : Fin d → Fin d → α) : Prop :=
  ∀ j k, ∑ i, Q i j * Q i k = if j = k then 1 else 0

/-- The point `x` multiplied by the matrix `Q`, then by the scale `s`, then moved by `t`. -/
def similar {α : Type} [CommRing α] {d : Nat} (s : α) (Q : Fin d → Fin d → α) (t : Fin d → α) (x : List α) : List α :=
  List.ofFn fun i => s * ∑ j, Q i j * x.getD j 0 + t i

end OpenML.Spec
