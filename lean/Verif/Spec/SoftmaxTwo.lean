import Verif.Model.Data
import Mathlib.Data.Real.Basic

/-!
# Specification: weights for two classes from a centre and a difference
-/

namespace OpenML.Spec

/-- Two columns of weights with the given means and differences: `m - w/2` for class 0 and `m + w/2` for class 1. -/
noncomputable def around (m w : List ℝ) : DMat ℝ := ⟨2, List.zipWith (fun a b => [a - b / 2, a + b / 2]) m w⟩

end OpenML.Spec
