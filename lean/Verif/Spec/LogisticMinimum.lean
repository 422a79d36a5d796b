import Verif.Spec.Loss

/-!
# Specification: overlapping classes
-/

namespace OpenML.Spec

/-- No weights put all samples on the side of their label, with at least one of them off the border. -/
def Overlap (d : Nat) (rows : List (List ℝ)) (y : List ℝ) : Prop :=
  ∀ u : Fin d → ℝ, (∀ p ∈ rows.zip y, (p.2 = 1 → 0 ≤ score p.1 u) ∧ (p.2 = 0 → score p.1 u ≤ 0)) → ∀ p ∈ rows.zip y, score p.1 u = 0

/-- `w` has the value `m` of the function and no other argument has a smaller one. -/
def Minimises (F : List ℝ → Res ℝ) (w : List ℝ) (m : ℝ) : Prop := F w = .ok m ∧ ∀ v b, F v = .ok b → m ≤ b

end OpenML.Spec
