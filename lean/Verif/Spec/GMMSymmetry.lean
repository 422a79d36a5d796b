import Verif.Spec.GMM

/-!
# Specification: mixtures in other coordinates
-/

namespace OpenML.Spec

open Matrix

/-- The distribution of `x A` for `x` drawn from the mixture, with component `π k` in place `k`. -/
noncomputable def Mixture.moved {K d : Nat} (A : Matrix (Fin d) (Fin d) ℝ) (π : Fin K → Fin K) (θ : Mixture K d) : Mixture K d :=
  { weight := fun k => θ.weight (π k)
    mean := fun k => θ.mean (π k) ᵥ* A
    cov := fun k => Aᵀ * θ.cov (π k) * A }

end OpenML.Spec
