import Mathlib.Data.Real.Basic
import Mathlib.Data.List.OfFn

/-!
# Specifications for reordered features and exchanged labels
-/

namespace OpenML.Spec

/-- A row with reordered entries, whose entry `j` is multiplied by `ε j`. -/
def rearrange {d : Nat} (π : Equiv.Perm (Fin d)) (ε : Fin d → ℝ) (row : List ℝ) : List ℝ := List.ofFn fun j => ε j * row.getD (π j) 0

end OpenML.Spec
