import Verif.Spec.FirstOccurrence
import Verif.Spec.Order
import Mathlib.Data.Rat.Defs

/-!
# Specification: support of itemsets in a transaction database
-/

namespace OpenML.Spec

/-- Number of transactions that contain every item of `s`. -/
def support (X : List (List Nat)) (s : List Nat) : Nat := X.countP fun t => decide (∀ v ∈ s, v ∈ t)

/-- Number of ways to find `s` in `t` by deleting entries of `t`. -/
def embeddings : List Nat → List Nat → Nat
  | [], _ => 1
  | _ :: _, [] => 0
  | a :: s, b :: t => (if a = b then embeddings s t else 0) + embeddings (a :: s) t

/-- Number of ways to find `s` in the transactions of `X`. -/
def occurrences (X : List (List Nat)) (s : List Nat) : Nat := (X.map (embeddings s)).sum

/-- Every item of `s` occurs somewhere in the database. -/
def ItemsOccur (X : List (List Nat)) (s : List Nat) : Prop := ∀ v ∈ s, ∃ t ∈ X, v ∈ t

/-- `s` is a frequent itemset of size `k`, written increasingly. -/
structure IsFrequent (X : List (List Nat)) (threshold k : Nat) (s : List Nat) : Prop where
  size : s.length = k
  increasing : s.Pairwise (· < ·)
  occur : ItemsOccur X s
  frequent : threshold ≤ support X s

/-- Every transaction is strictly increasing and items make their first appearance in increasing order. -/
def ConsistentlyOrdered (X : List (List Nat)) : Prop :=
  (∀ t ∈ X, t.Pairwise (· < ·)) ∧ (firstOccurrences X.flatten).Pairwise (· < ·)

instance (X : List (List Nat)) : Decidable (ConsistentlyOrdered X) := inferInstanceAs (Decidable (_ ∧ _))

/-- The levels of a level-wise search that lists single items in order of first appearance, forms candidates `P,x,y` from
listed itemsets `P,x` and `P,y` in this order, counts them as subsequences of the transactions and stops when a level has
fewer than two itemsets. -/
inductive Level (X : List (List Nat)) (threshold : Nat) : Nat → List (List Nat) → Prop
  | one : Level X threshold 1
      (((firstOccurrences X.flatten).filter fun v => decide (threshold ≤ support X [v])).map fun v => [v])
  | next {k : Nat} {L L' : List (List Nat)} (prev : Level X threshold k L) (many : 1 < L.length)
      (sorted : L'.Pairwise (DictBefore false))
      (mem : ∀ s, s ∈ L' ↔ ∃ P x y, s = P ++ [x, y] ∧ Before L (P ++ [x]) (P ++ [y]) ∧ threshold ≤ occurrences X s) :
      Level X threshold (k + 1) L'

end OpenML.Spec

namespace OpenML.Spec

/-- The count recorded for `s` in a table: its last entry with a positive count. -/
def lastCount (all : List (List Nat × Nat)) (s : List Nat) : Option Nat :=
  (all.reverse.find? fun e => decide (e.1 = s ∧ 0 < e.2)).map Prod.snd

/-- `(a, c, conf)` is a rule drawn from an itemset `f` with count `cf`, given the count `ca` of the antecedent: `a` is a
non-empty proper part of `f`, `c` the rest of `f` written increasingly, `conf` the ratio of the counts. -/
structure IsRule (f a c : List Nat) (cf ca : Nat) (conf : ℚ) : Prop where
  part : a.Sublist f
  nonempty : a ≠ []
  proper : a ≠ f
  consequentSorted : c.Pairwise (· < ·)
  consequent : ∀ x, x ∈ c ↔ x ∈ f ∧ x ∉ a
  confidence : conf = (cf : ℚ) / (ca : ℚ)

end OpenML.Spec
