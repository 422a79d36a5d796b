import Mathlib.Analysis.SpecialFunctions.Log.NegMulLog
import Mathlib.Data.Finset.Dedup
import Mathlib.Algebra.BigOperators.Group.Finset.Basic

/-!
# Specification: Gini impurity and Shannon entropy of a list of labels
-/

namespace OpenML.Spec

variable {β : Type} [DecidableEq β]

/-- Relative frequency of a label. -/
def freq {K : Type} [Field K] (x : List β) (k : β) : K := (x.count k : K) / (x.length : K)

/-- Gini impurity: one minus the sum of the squared relative frequencies. -/
def giniImpurity {K : Type} [Field K] (x : List β) : K := 1 - ∑ k ∈ x.toFinset, freq x k ^ 2

/-- Shannon entropy in bits. -/
noncomputable def shannon (x : List β) : ℝ := ∑ k ∈ x.toFinset, Real.negMulLog (freq x k) / Real.log 2

end OpenML.Spec
