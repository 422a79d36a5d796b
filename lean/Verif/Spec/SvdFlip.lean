import Verif.Model.Eigen
import Mathlib.Algebra.Ring.Defs

/-!
# Specification: entries and products of matrices
-/

namespace OpenML.Spec

variable {α : Type} [CommRing α]

/-- Entry of a matrix. -/
def entry (x : DMat α) (i j : Nat) : α := (x.rows.getD i []).getD j 0

/-- Entry `(i, j)` of the product `U * diag(s) * Vt`. -/
def productEntry (U : DMat α) (s : Nat → α) (Vt : DMat α) (i j : Nat) : α :=
  ((List.range U.ncols).map fun k => entry U i k * s k * entry Vt k j).sum

end OpenML.Spec
