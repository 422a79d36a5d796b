import Verif.Spec.Loss
import Verif.Spec.Descent
import Verif.Spec.LogisticMinimum
import Verif.Model.Eigen
import Mathlib.Analysis.SpecialFunctions.Pow.NNReal

/-!
# Specification: training sets as lists of samples, lengths and distances
-/

namespace OpenML.Spec

/-- The features of some samples as a matrix with `d` columns. -/
def featuresOf (d : Nat) (l : List (List ℝ × ℝ)) : DMat ℝ := ⟨d, l.map Prod.fst⟩

/-- The labels of some samples. -/
def labelsOf (l : List (List ℝ × ℝ)) : List ℝ := l.map Prod.snd

/-- A sample with `d` features and a label between 0 and 1. -/
def ProperSample (d : Nat) (p : List ℝ × ℝ) : Prop := p.1.length = d ∧ 0 ≤ p.2 ∧ p.2 ≤ 1

/-- Euclidean length of a list of numbers. -/
noncomputable def rowSize (x : List ℝ) : ℝ := Real.sqrt ((x.map fun a => a ^ 2).sum)

/-- Euclidean distance of two weight vectors. -/
noncomputable def gap (v w : List ℝ) : ℝ := Real.sqrt (weightDist v w)

/-- The training set that consists of the samples with the given numbers. -/
def drawn {N n : Nat} (pop : Fin N → List ℝ × ℝ) (z : Fin n → Fin N) : List (List ℝ × ℝ) := List.ofFn fun i => pop (z i)

/-- Mean over all draws of `n` samples, with replacement, from `N` samples. -/
noncomputable def overDraws {N n : Nat} (f : (Fin n → Fin N) → ℝ) : ℝ := (∑ z, f z) / (N : ℝ) ^ n

end OpenML.Spec
