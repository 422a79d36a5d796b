import Mathlib.Order.Defs.LinearOrder

/-!
# Specification: first position of the greatest / least entry
-/

namespace OpenML.Spec

/-- `p` is the least position at which the greatest entry of `l` stands. -/
def IsFirstMax {α : Type} [LinearOrder α] (l : List α) (p : Nat) : Prop :=
  ∃ v, l[p]? = some v ∧ ∀ q w, l[q]? = some w → w ≤ v ∧ (w = v → p ≤ q)

/-- `p` is the least position at which the least entry of `l` stands. -/
def IsFirstMin {α : Type} [LinearOrder α] (l : List α) (p : Nat) : Prop :=
  ∃ v, l[p]? = some v ∧ ∀ q w, l[q]? = some w → v ≤ w ∧ (w = v → p ≤ q)

end OpenML.Spec
