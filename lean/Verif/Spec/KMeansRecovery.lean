import Verif.Spec.KMeans
import Mathlib.Analysis.SpecialFunctions.Pow.NNReal

/-!
# Specification: well separated groups of samples
-/

namespace OpenML.Spec

/-- Euclidean distance. -/
noncomputable def apart (x y : List ℝ) : ℝ := Real.sqrt (sqDist x y)

/-- A point belongs to group `a`: it is within `δ` of all samples of the group and more than `2 δ` away from all others. -/
def BelongsTo (δ : ℝ) (rows : List (List ℝ)) (G : List Nat) (x : List ℝ) (a : Nat) : Prop :=
  ∀ e ∈ rows.zip G, (e.2 = a → apart x e.1 ≤ δ) ∧ (e.2 ≠ a → 2 * δ < apart x e.1)

/-- Samples of one group are within `δ` of each other, samples of different groups more than `2 δ` apart. -/
def WellSeparated (δ : ℝ) (rows : List (List ℝ)) (G : List Nat) : Prop :=
  ∀ e ∈ rows.zip G, BelongsTo δ rows G e.1 e.2

/-- A point is within `δ` of all samples of group `a` and at least `Δ` away from all others. -/
def BelongsWithin (δ Δ : ℝ) (rows : List (List ℝ)) (G : List Nat) (x : List ℝ) (a : Nat) : Prop :=
  ∀ e ∈ rows.zip G, (e.2 = a → apart x e.1 ≤ δ) ∧ (e.2 ≠ a → Δ ≤ apart x e.1)

end OpenML.Spec
