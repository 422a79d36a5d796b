import Verif.Spec.Sampling
import Mathlib.SetTheory.Cardinal.Finite

/-!
# Specification: how often something happens under random shuffles
-/

namespace OpenML.Spec

/-- The share of the sequences of draws behind a shuffle of `n` entries for which `P` holds, all of them being equally likely. -/
noncomputable def shareOf {n : Nat} (P : Draws n → Prop) : ℝ :=
  (Nat.card {d // P d} : ℝ) / (Nat.card (Draws n) : ℝ)

/-- The average of a number attached to the samples and their labels. -/
noncomputable def averageOver {ρ β : Type} (f : ρ → β → ℝ) (X : List ρ) (y : List β) : ℝ := average (List.zipWith f X y)

end OpenML.Spec
