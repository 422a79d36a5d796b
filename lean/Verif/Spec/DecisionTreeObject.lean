import Verif.Model.DecisionTreeObject

/-!
# Specification: which calls of `fit` matter for a tree object, and the same probabilities for more classes
-/

namespace OpenML.Spec

open DTreeObject

variable {α Q : Type}

/-- A call of `fit`. -/
def FitsTree (c : Call α Q) : Prop := ∃ X y, c = .fit X y

/-- The last call of `fit` had these data. -/
def LastTreeData (cs : List (Call α Q)) (X : DMat α) (y : List α) : Prop :=
  ∃ before after, cs = before ++ .fit X y :: after ∧ ∀ c ∈ after, ¬ FitsTree c

/-- All labels or targets given to `fit`. -/
def allTargets (cs : List (Call α Q)) : List α := cs.flatMap fun c => match c with | .fit _ y => y | .ask _ => []

/-- Every call of `fit` has samples, and as many labels or targets as samples. -/
def FitsHaveData (cs : List (Call α Q)) : Prop := ∀ X y, Call.fit X y ∈ cs → y.length = X.nrows ∧ y ≠ []

/-- The distinct elements in increasing order. -/
def IsClasses [LT α] (K ys : List α) : Prop := K.Pairwise (· < ·) ∧ ∀ k, k ∈ K ↔ k ∈ ys

/-- `row` are probabilities for the classes `K` and `row'` for the classes `K'`: the same for a class of both, and 0 for a class of `K`
only, or else all are NaN. -/
def SameProbabilities [Zero α] (K K' : List α) (row row' : List (Option α)) : Prop :=
  row.length = K.length ∧ row'.length = K'.length ∧ ∀ (j : Nat) (k : α), K[j]? = some k →
    (∀ j' : Nat, K'[j']? = some k → row[j]? = row'[j']?) ∧
    (k ∉ K' → row[j]? = some (some 0) ∨ row[j]? = some none ∧ ∀ q ∈ row', q = none)

end OpenML.Spec
