import Verif.Spec.Sorting
import Mathlib.Data.List.Sort

/-!
# Specification: sorted lists, sorting procedures, dictionary order
-/

namespace OpenML.Spec

/-- `l` is in the requested order: no entry is followed by one that has to come in front of it. -/
def InOrder {α : Type} [LinearOrder α] (reverse : Bool) (l : List α) : Prop :=
  l.Pairwise fun a b => ¬ Ahead reverse b a

/-- What the C++ standard guarantees about `std::sort` and nothing else: on inputs on which the comparator is a strict weak
order the result is a rearrangement without inversions. Equivalent elements may end up in any order. -/
def IsSort {β : Type} (sorter : (β → β → Bool) → List β → List β) : Prop :=
  ∀ (lt : β → β → Bool) (l : List β),
    (∀ a ∈ l, lt a a = false) →
    (∀ a ∈ l, ∀ b ∈ l, ∀ c ∈ l, lt a b = true → lt b c = true → lt a c = true) →
    (∀ a ∈ l, ∀ b ∈ l, ∀ c ∈ l, lt a b = false → lt b a = false → lt b c = false → lt c b = false →
      lt a c = false ∧ lt c a = false) →
    (sorter lt l).Perm l ∧ (sorter lt l).Pairwise fun a b => lt b a = false

/-- `v` comes in front of `w` in the dictionary order on lists: at the first position where they differ, `v` has the entry
that has to come first. -/
def DictBefore {α : Type} [LinearOrder α] (reverse : Bool) (v w : List α) : Prop :=
  ∃ (p : List α) (a b : α) (s t : List α), v = p ++ a :: s ∧ w = p ++ b :: t ∧ Ahead reverse a b

end OpenML.Spec
