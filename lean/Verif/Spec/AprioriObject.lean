import Verif.Spec.Itemsets

/-!
# Specification: what a program that keeps using one rule miner sees

A database either completes or not. In both cases its itemsets enter the table of the object; rules are drawn, from the whole table, only
when it completes.
-/

namespace OpenML.Spec

/-- The table and the rules of the object after the databases `Xs`, given those before. `itemsets X` is what a database adds to the
table, `completes X` whether it completes, `drawn table` the rules drawn from a table. -/
def mined {R : Type} (itemsets : List (List Nat) → List (List Nat × Nat)) (completes : List (List Nat) → Bool)
    (drawn : List (List Nat × Nat) → List R) : List (List (List Nat)) → List (List Nat × Nat) × List R → List (List Nat × Nat) × List R
  | [], p => p
  | X :: Xs, p =>
    mined itemsets completes drawn Xs
      (p.1 ++ itemsets X, if completes X then p.2 ++ drawn (p.1 ++ itemsets X) else p.2)

/-- `table` lists exactly the increasing itemsets of `X` that reach the threshold, each once with its support. -/
structure ListsFrequent (X : List (List Nat)) (threshold : Nat) (table : List (List Nat × Nat)) : Prop where
  once : (table.map Prod.fst).Nodup
  exact : ∀ s c, (s, c) ∈ table ↔ s ≠ [] ∧ s.Pairwise (· < ·) ∧ ItemsOccur X s ∧ threshold ≤ support X s ∧ c = support X s

/-- Some size has exactly one frequent itemset. -/
def HasSingleLevel (X : List (List Nat)) (threshold : Nat) : Prop :=
  ∃ k, 1 ≤ k ∧ ∃ s, ∀ s', IsFrequent X threshold k s' ↔ s' = s

end OpenML.Spec

namespace OpenML.Spec

/-- The most recent count of `s` when the database `X` was mined before `Y`: that in `Y` if `s` was frequent there, else that in `X`. -/
def LatestCount (X : List (List Nat)) (tX : Nat) (Y : List (List Nat)) (tY : Nat) (s : List Nat) (n : Nat) : Prop :=
  0 < n ∧ ((IsFrequent Y tY s.length s ∧ 0 < support Y s ∧ n = support Y s) ∨
    (¬ (IsFrequent Y tY s.length s ∧ 0 < support Y s) ∧ IsFrequent X tX s.length s ∧ n = support X s))

end OpenML.Spec
