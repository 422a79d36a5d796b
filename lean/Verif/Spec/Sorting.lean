import Mathlib.Order.Defs.LinearOrder

/-!
# Specification: stable index sorting
-/

namespace OpenML.Spec

/-- `i` occurs in `l` and `j` occurs behind it. -/
def Before {β : Type} (l : List β) (i j : β) : Prop := [i, j].Sublist l

/-- `a` must come strictly in front of `b` in the requested direction. -/
def Ahead {α : Type} [LinearOrder α] (reverse : Bool) (a b : α) : Prop := if reverse then b < a else a < b

/-- `r` rearranges the positions `prev` so that the entries of `line` they denote are in order, equal entries keeping the
order they have in `prev`. For a given `prev` without repetition this determines `r`. -/
structure IsStableArgsort {α : Type} [LinearOrder α] (line : List α) (reverse : Bool) (prev r : List Nat) : Prop where
  perm : r.Perm prev
  order : ∀ i j, Before r i j → ∃ a b, line[i]? = some a ∧ line[j]? = some b ∧
    (Ahead reverse a b ∨ (a = b ∧ Before prev i j))

end OpenML.Spec
