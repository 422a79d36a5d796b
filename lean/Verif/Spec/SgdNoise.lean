import Verif.Spec.SgdStability
import Verif.Spec.SGD

/-!
# Specification: an optimizer that computes its steps with errors
-/

namespace OpenML.Spec

open SGD

/-- The steps of an optimizer, each with an error that may depend on everything the step depends on. -/
def withError (step : Step ℝ (List ℝ)) (err : List ℝ → DMat ℝ → List ℝ → ℝ → Nat → List ℝ) : Step ℝ (List ℝ) :=
  fun s X y lr j => do
    let s' ← step s X y lr j
    .ok (List.zipWith (· + ·) s' (err s X y lr j))

/-- The errors are as if each gradient with `d` entries was wrong by at most `ρ`. -/
def GradientError (d : Nat) (ρ : ℝ) (err : List ℝ → DMat ℝ → List ℝ → ℝ → Nat → List ℝ) : Prop :=
  ∀ s X y lr j, 0 ≤ lr → (err s X y lr j).length = d ∧ rowSize (err s X y lr j) ≤ lr * ρ

end OpenML.Spec
