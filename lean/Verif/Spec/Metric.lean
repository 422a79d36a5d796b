import Verif.Model.Res
import Mathlib.Analysis.Real.Sqrt

/-!
# Specification: distances
-/

namespace OpenML.Spec

/-- A call that may fail is a distance on the given set: defined, non-negative, zero exactly for equal arguments, symmetric,
with the triangle inequality. -/
structure IsDistanceOn {β : Type} (S : β → Prop) (d : β → β → Res ℝ) : Prop where
  defined : ∀ x y, S x → S y → ∃ v, d x y = .ok v ∧ 0 ≤ v ∧ (v = 0 ↔ x = y)
  symm : ∀ x y, S x → S y → d x y = d y x
  triangle : ∀ x y z a b c, S x → S y → S z → d x y = .ok a → d y z = .ok b → d x z = .ok c → c ≤ a + b

/-- Mean of the absolute errors. -/
noncomputable def meanAbsErr (y p : List ℝ) : ℝ := (List.zipWith (fun a b => |a - b|) y p).sum / (y.length : ℝ)

/-- Mean of the squared errors. -/
noncomputable def meanSqErr (y p : List ℝ) : ℝ := (List.zipWith (fun a b => (a - b) ^ 2) y p).sum / (y.length : ℝ)

end OpenML.Spec
