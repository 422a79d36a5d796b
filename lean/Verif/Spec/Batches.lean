import Verif.Spec.Loss

/-!
# Specifications for gradient descent in mini-batches
-/

namespace OpenML.Spec

/-- The losses of full batches of `b` samples, each with ridge term, summed up at fixed weights; samples that are in no full batch
are counted as well. -/
noncomputable def epochLoss {d : Nat} (phi : ℝ → ℝ → ℝ) (lambda : ℝ) (b : Nat) (l : List (List ℝ × ℝ)) (u : Fin d → ℝ) : ℝ :=
  (l.map fun p => phi p.2 (score p.1 u)).sum / b + (l.length / b : Nat) * (lambda * ridgeTerm b u)

end OpenML.Spec
