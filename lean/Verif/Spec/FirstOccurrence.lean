/-!
# Specification: keep the first occurrence of each element
-/

namespace OpenML.Spec

/-- No earlier position of `X` holds the same element as position `i`. -/
def IsFirst {β : Type} (X : List β) (i : Nat) : Prop := ∀ j, j < i → X[j]? ≠ X[i]?

instance {β : Type} [DecidableEq β] (X : List β) (i : Nat) : Decidable (IsFirst X i) :=
  inferInstanceAs (Decidable (∀ j, j < i → X[j]? ≠ X[i]?))

/-- The elements at first-occurrence positions, in order of position. -/
def firstOccurrences {β : Type} [DecidableEq β] (X : List β) : List β :=
  ((List.range X.length).filter (fun i => decide (IsFirst X i))).filterMap (X[·]?)

end OpenML.Spec
