import Verif.Model.PCAObject
import Verif.Spec.PCA

/-!
# Specification: which earlier calls of a PCA program matter
-/

namespace OpenML.Spec

open PCAObject

/-- Split a program at the last call with a property: what was before it, the call, and what came after it. -/
def SplitsAtLast {d : Nat} (p : Call d → Prop) (cs before : List (Call d)) (c : Call d) : Prop :=
  ∃ after, cs = before ++ c :: after ∧ p c ∧ ∀ e ∈ after, ¬ p e

/-- A call of `fit`. -/
def IsFit {d : Nat} (c : Call d) : Prop := ∃ n X, c = .fit n X

/-- `X` are the data of the last call of `fit`. -/
def LastData {d : Nat} (cs : List (Call d)) (n : Nat) (X : Matrix (Fin n) (Fin d) ℝ) : Prop :=
  ∃ before, SplitsAtLast IsFit cs before (.fit n X)

/-- `X` are the data that had been fitted last when `get_covariance` was called last. -/
def CovarianceData {d : Nat} (cs : List (Call d)) (n : Nat) (X : Matrix (Fin n) (Fin d) ℝ) : Prop :=
  ∃ before, SplitsAtLast (· = .covariance) cs before .covariance ∧ LastData before n X

/-- `X` are the data that had been fitted last when `get_covariance` was called last before the last call of `get_precision`. -/
def PrecisionData {d : Nat} (cs : List (Call d)) (n : Nat) (X : Matrix (Fin n) (Fin d) ℝ) : Prop :=
  ∃ before, SplitsAtLast (· = .precision) cs before .precision ∧ CovarianceData before n X

/-- The calls made before a call are those it needs: `fit` needs `k` samples and features, the others an earlier call. -/
def Allowed {d : Nat} (k : Nat) (before : List (Call d)) : Call d → Prop
  | .fit n _ => k ≤ min n d
  | .transform _ _ => ∃ c ∈ before, IsFit c
  | .covariance => ∃ c ∈ before, IsFit c
  | .precision => .covariance ∈ before
  | .score _ _ => .precision ∈ before
  | _ => True

/-- The decompositions of all training data of a program are singular value decompositions, and no training data are empty. -/
def ProperData {d : Nat} (D : Decompositions d) (cs : List (Call d)) : Prop :=
  ∀ n X, Call.fit n X ∈ cs → 0 < n ∧ IsThinSVD (centred X) (D.thin n (centred X)).1 (D.thin n (centred X)).2.1 (D.thin n (centred X)).2.2

/-- Calls whose answers come from the last call of `fit`. -/
inductive AsksLastFit {d : Nat} : Call d → Prop where
  | transform (m : Nat) (Z : Matrix (Fin m) (Fin d) ℝ) : AsksLastFit (.transform m Z)
  | components : AsksLastFit .components
  | explainedVar : AsksLastFit .explainedVar
  | explainedVarRatio : AsksLastFit .explainedVarRatio
  | singularValues : AsksLastFit .singularValues
  | covariance : AsksLastFit .covariance

end OpenML.Spec
