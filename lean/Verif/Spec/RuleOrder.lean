import Verif.Spec.Itemsets

/-!
# Specification: the order in which association rules are listed
-/

namespace OpenML.Spec

/-- A rule (antecedent, consequent, confidence) is listed before another: the itemset it is drawn from comes first in the
lexicographic order of increasing lists, in which a proper prefix comes before its extensions; from the same itemset, the shorter
antecedent comes first and antecedents of the same length come in lexicographic order. -/
def RuleBefore (r r' : List Nat × List Nat × ℚ) : Prop :=
  ∀ f f' : List Nat, f.Pairwise (· < ·) → f'.Pairwise (· < ·) → (∀ x, x ∈ f ↔ x ∈ r.1 ∨ x ∈ r.2.1) →
    (∀ x, x ∈ f' ↔ x ∈ r'.1 ∨ x ∈ r'.2.1) →
    f < f' ∨ f = f' ∧ (r.1.length < r'.1.length ∨ r.1.length = r'.1.length ∧ r.1 < r'.1)

end OpenML.Spec
