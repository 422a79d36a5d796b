import Mathlib.Data.Fintype.BigOperators
import Mathlib.Data.Real.Basic
import Verif.Spec.Random
import Verif.Spec.Stats

/-!
# Specification of averages over random shuffles
-/

namespace OpenML.Spec

/-- The average of a number over all sequences of draws behind a shuffle of `n` entries, all of them being equally likely. -/
noncomputable def averageDraws {n : Nat} (F : Draws n → ℝ) : ℝ := (∑ d, F d) / (Fintype.card (Draws n) : ℝ)

/-- The average squared distance of a random number from `c`. -/
noncomputable def spreadDraws {n : Nat} (F : Draws n → ℝ) (c : ℝ) : ℝ := averageDraws fun d => (F d - c) ^ 2

/-- Variance of the mean of `b` values drawn without replacement from the list `l`, by the formula of survey sampling: the mean
squared deviation divided by `b`, times the correction for the finite population. -/
noncomputable def sampleVariance (b : Nat) (l : List ℝ) : ℝ :=
  meanSquaredDeviation l / b * (((l.length : ℝ) - b) / ((l.length : ℝ) - 1))

end OpenML.Spec
