import Verif.Model.NaiveBayesObject
import Mathlib.Analysis.SpecialFunctions.Log.Basic
import Mathlib.Algebra.BigOperators.Group.List.Basic

/-!
# Specification: what matters of the calls of `fit` of a naive Bayes object
-/

namespace OpenML.Spec

/-- All labels of some calls of `fit`. -/
def allLabels (calls : List (DMat ℝ × List ℝ)) : List ℝ := (calls.map Prod.snd).flatten

/-- The calls of `fit` of a program. -/
def fitCalls {Q : Type} (as : List (NBObject.Action Q)) : List (DMat ℝ × List ℝ) :=
  as.filterMap fun a => match a with | .fit X y => some (X, y) | .ask _ => none

/-- Every matrix of samples is a matrix and there are labels. -/
def ProperFits (calls : List (DMat ℝ × List ℝ)) : Prop := ∀ c ∈ calls, c.1.WF ∧ c.2 ≠ []

/-- The calls end with one that has as many labels as samples, followed by calls that have not. -/
def EndsWith (calls before : List (DMat ℝ × List ℝ)) (X : DMat ℝ) (y : List ℝ) (after : List (DMat ℝ × List ℝ)) : Prop :=
  calls = before ++ (X, y) :: after ∧ y.length = X.nrows ∧ ∀ c ∈ after, c.2.length ≠ c.1.nrows

/-- The score of a class in a multinomial model: logarithm of its weight plus logarithm of the likelihood of `x`, for sums `s` of the
features of the class, smoothing `alpha` and `d` features. -/
noncomputable def multinomialScore (alpha : ℝ) (d : Nat) (weight : Nat) (s x : List ℝ) : ℝ :=
  Real.log weight + (List.zipWith (fun a c => a * Real.log ((c + alpha) / (s.sum + alpha * (d : ℝ)))) x s).sum

end OpenML.Spec
