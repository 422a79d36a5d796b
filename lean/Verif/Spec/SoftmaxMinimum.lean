import Verif.Spec.SoftmaxDescent
import Verif.Spec.SgdStability

/-!
# Specifications for the minimum of the penalised softmax loss
-/

namespace OpenML.Spec

/-- A sample with `d` features whose label is one of the class numbers `0, …, k - 1`. -/
def ClassSample (d k : Nat) (p : List ℝ × ℝ) : Prop := p.1.length = d ∧ ∃ c : Fin k, p.2 = ((c.val : Nat) : ℝ)

/-- Euclidean distance of two matrices of weights. -/
noncomputable def matrixGap (V W : DMat ℝ) : ℝ := Real.sqrt (matrixDist V W)

/-- Euclidean length of a matrix. -/
noncomputable def matrixSize (W : DMat ℝ) : ℝ := Real.sqrt (matrixMass W)

/-- The matrix of zeros. -/
def zeroMat (d k : Nat) : DMat ℝ := ⟨k, List.replicate d (List.replicate k 0)⟩

/-- Two columns of weights with opposite signs; the second is given. -/
def mirror (v : List ℝ) : DMat ℝ := ⟨2, v.map fun a => [-a, a]⟩

end OpenML.Spec
