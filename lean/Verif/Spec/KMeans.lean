import Mathlib.Algebra.Order.Field.Basic
import Mathlib.Algebra.BigOperators.Group.List.Basic

/-!
# Specification: squared distances, inertia
-/

namespace OpenML.Spec

variable {α : Type} [Field α] [LinearOrder α]

/-- Squared Euclidean distance. -/
def sqDist (x c : List α) : α := (List.zipWith (fun a b => (a - b) ^ 2) x c).sum

/-- The least squared distance to a non-empty list of points. -/
def minSqDist (x : List α) : List (List α) → α
  | [] => 0
  | [c] => sqDist x c
  | c :: c' :: cs => min (sqDist x c) (minSqDist x (c' :: cs))

/-- The sum over all points of the squared distance to the nearest centroid. -/
def inertia (X C : List (List α)) : α := (X.map fun x => minSqDist x C).sum

/-- The coordinate-wise average of points with `d` coordinates. -/
def centreOf (d : Nat) (pts : List (List α)) : List α :=
  (List.range d).map fun i => (pts.map fun p => p.getD i 0).sum / (pts.length : α)

/-- The points that carry a label. -/
def withLabel (pts : List (List α)) (labels : List Nat) (j : Nat) : List (List α) :=
  ((pts.zip labels).filter fun e => e.2 = j).map Prod.fst

/-- Roulette wheel selection: `i` is the first index at which the running sum of the weights reaches the fraction `r` of
their total. -/
def IsRoulettePick (w : List α) (r : α) (i : Nat) : Prop :=
  i < w.length ∧ r * w.sum ≤ (w.take (i + 1)).sum ∧ ∀ j < i, (w.take (j + 1)).sum < r * w.sum

/-- A centre chosen by greedy roulette: among the rows picked by the draws `rs` with the squared distances to the centres
`P` as weights, the chosen row has the least resulting inertia. -/
def GreedyPick (rows P : List (List α)) (rs : List α) (c : List α) : Prop :=
  (∃ r ∈ rs, ∃ i, IsRoulettePick (rows.map fun x => minSqDist x P) r i ∧ rows[i]? = some c) ∧
  ∀ r ∈ rs, ∀ i row, IsRoulettePick (rows.map fun x => minSqDist x P) r i → rows[i]? = some row →
    inertia rows (P ++ [c]) ≤ inertia rows (P ++ [row])

end OpenML.Spec
