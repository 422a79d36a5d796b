import Mathlib.Algebra.Order.Ring.Defs
import Mathlib.Algebra.Order.Group.Abs
import Mathlib.Order.WithBot
import Mathlib.Data.List.Perm.Basic
import Mathlib.Data.List.Sort

/-!
# Specification: nearest neighbours
-/

namespace OpenML.Spec

variable {α : Type} [CommRing α] [LinearOrder α]

/-- A norm that does not decrease when all coordinates grow in absolute value. -/
def MonotoneNorm (nrm : List α → α) : Prop :=
  ∀ u v : List α, List.Forall₂ (fun a b => |a| ≤ |b|) u v → nrm u ≤ nrm v

/-- Distance of two points for a norm. -/
def distance (nrm : List α → α) (p x : List α) : α := nrm (List.zipWith (· - ·) p x)

/-- The answer is a list of `k` different rows of `rows` with their distances to `x`, nearest first, such that no row left
out is closer than one of them. -/
structure IsKNearest (nrm : List α → α) (rows : List (List α)) (x : List α) (k : Nat)
    (answer : List (WithTop α × Nat)) : Prop where
  length : answer.length = k
  sorted : answer.Pairwise fun a b => a.1 ≤ b.1
  distinct : (answer.map Prod.snd).Nodup
  true_distance : ∀ e ∈ answer, ∃ p, rows[e.2]? = some p ∧ e.1 = (distance nrm p x : α)
  nearest : ∀ (i : Nat) (p : List α), rows[i]? = some p → i ∉ answer.map Prod.snd →
    ∀ e ∈ answer, e.1 ≤ (distance nrm p x : α)

/-- Up to the factor `c` the first norm does not exceed the second on vectors of length `n` if all coordinates are smaller in absolute
value. -/
def NearMonotone (n : Nat) (c : α) (nrmP nrm : List α → α) : Prop :=
  ∀ u v : List α, v.length = n → List.Forall₂ (fun a b => |a| ≤ |b|) u v → nrmP u ≤ c * nrm v

/-- Like `IsKNearest`, but a row left out may be closer than one in the answer by the factor `c`. -/
structure IsNearlyKNearest (c : α) (nrm : List α → α) (rows : List (List α)) (x : List α) (k : Nat)
    (answer : List (WithTop α × Nat)) : Prop where
  length : answer.length = k
  sorted : answer.Pairwise fun a b => a.1 ≤ b.1
  distinct : (answer.map Prod.snd).Nodup
  true_distance : ∀ e ∈ answer, ∃ p, rows[e.2]? = some p ∧ e.1 = (distance nrm p x : α)
  nearest : ∀ (i : Nat) (p : List α), rows[i]? = some p → i ∉ answer.map Prod.snd →
    ∀ e ∈ answer, e.1 ≤ (c * distance nrm p x : α)

/-- The spread of feature 0 is at least that of every other feature. -/
def FirstFeatureWidest (ncols : Nat) (rows : List (List α)) : Prop :=
  ∀ j, j < ncols → ∀ p ∈ rows, ∀ q ∈ rows, ∀ a b, p[j]? = some a → q[j]? = some b →
    ∃ p' ∈ rows, ∃ q' ∈ rows, ∃ a' b', p'[0]? = some a' ∧ q'[0]? = some b' ∧ |a - b| ≤ |a' - b'|

end OpenML.Spec

namespace OpenML.Spec

/-- The `k` smallest distances of `x` to the rows, in increasing order. -/
def nearestDistances {α : Type} [CommRing α] [LinearOrder α] (nrm : List α → α) (rows : List (List α)) (x : List α) (k : Nat) : List α :=
  ((rows.map fun p => distance nrm p x).insertionSort (· ≤ ·)).take k

end OpenML.Spec

namespace OpenML.Spec

/-- The triangle inequality and symmetry, for a function that turns coordinate differences into a distance. -/
structure TriangleNorm {α : Type} [CommRing α] [LinearOrder α] (nrm : List α → α) : Prop where
  add : ∀ u v : List α, u.length = v.length → nrm (List.zipWith (· + ·) u v) ≤ nrm u + nrm v
  neg : ∀ u : List α, nrm (u.map fun a => -a) = nrm u

end OpenML.Spec
