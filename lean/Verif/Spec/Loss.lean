import Mathlib.Analysis.Calculus.FDeriv.Basic
import Mathlib.Analysis.SpecialFunctions.Log.Basic
import Mathlib.Analysis.SpecialFunctions.Sigmoid
import Mathlib.Analysis.Normed.Module.FiniteDimension
import Verif.Model.Eigen

/-!
# Specification vocabulary for loss functions
-/

namespace OpenML.Spec

/-- The score of a sample: the sum of its features times the weights. -/
def score {d : Nat} (x : List ℝ) (w : Fin d → ℝ) : ℝ := ∑ j : Fin d, x.getD j 0 * w j

/-- `g` is the gradient of `F` at `w`: `F` is differentiable there and its derivative in direction `h` is the sum of
`g j * h j`. -/
def IsGradient {d : Nat} (F : (Fin d → ℝ) → ℝ) (g w : Fin d → ℝ) : Prop :=
  HasFDerivAt F (∑ j, g j • (ContinuousLinearMap.proj j : (Fin d → ℝ) →L[ℝ] ℝ)) w

/-- The same for a function of a matrix. -/
def IsMatrixGradient {d k : Nat} (F : (Fin d → Fin k → ℝ) → ℝ) (g w : Fin d → Fin k → ℝ) : Prop :=
  HasFDerivAt F (∑ f, ∑ c, g f c • ((ContinuousLinearMap.proj c : (Fin k → ℝ) →L[ℝ] ℝ).comp
    (ContinuousLinearMap.proj f : (Fin d → Fin k → ℝ) →L[ℝ] (Fin k → ℝ)))) w

/-- Mean of a per-sample loss over the samples. -/
noncomputable def meanLoss {d : Nat} (phi : ℝ → ℝ → ℝ) (samples : List (List ℝ × ℝ)) (w : Fin d → ℝ) : ℝ :=
  (samples.map fun p => phi p.2 (score p.1 w)).sum / samples.length

/-- Squared norm divided by twice the number of samples. -/
noncomputable def ridgeTerm {d : Nat} (n : Nat) (w : Fin d → ℝ) : ℝ := (∑ j, w j ^ 2) / (2 * n)

/-- Negative log likelihood of a label in [0, 1] if label 1 has probability `sigmoid s`. -/
noncomputable def crossEntropy (y s : ℝ) : ℝ := -(y * Real.log (Real.sigmoid s) + (1 - y) * Real.log (1 - Real.sigmoid s))

/-- Half the squared residual. -/
noncomputable def halfSquare (y s : ℝ) : ℝ := (y - s) ^ 2 / 2

end OpenML.Spec

namespace OpenML.Spec

/-- The documented Huber loss of a residual. -/
noncomputable def huber (delta r : ℝ) : ℝ := if |r| ≤ delta then r ^ 2 / 2 else delta * |r| - delta ^ 2 / 2

/-- `g` is a sub-gradient of `F` at `w`: `F` lies above the affine function with value `F w` and slope `g`. -/
def IsSubgradient {α : Type} [Field α] [LinearOrder α] (n : Nat) (F : List α → α) (g w : List α) : Prop :=
  ∀ v : List α, v.length = n →
    F w + (List.zipWith (· * ·) g (List.zipWith (· - ·) v w)).sum ≤ F v

end OpenML.Spec

namespace OpenML.Spec

/-- A matrix given by its entries. -/
def toDMat {d k : Nat} (w : Fin d → Fin k → ℝ) : DMat ℝ := ⟨k, List.ofFn fun f => List.ofFn (w f)⟩

/-- Negative log likelihood of class `c` if class probabilities are proportional to the exponentials of the scores. -/
noncomputable def classLoss {d k : Nat} (w : Fin d → Fin k → ℝ) (p : List ℝ × Fin k) : ℝ :=
  Real.log (∑ c, Real.exp (score p.1 fun f => w f c)) - score p.1 fun f => w f p.2

/-- The square of the sum of each row, summed over the rows, divided by twice the number of samples. -/
noncomputable def rowSumTerm {d k : Nat} (n : Nat) (w : Fin d → Fin k → ℝ) : ℝ := (∑ f, (∑ c, w f c) ^ 2) / (2 * n)

end OpenML.Spec
