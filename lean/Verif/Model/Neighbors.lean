import Verif.Model.KDTree
import Verif.Model.Stats

/-!
# Model of `neighbors::KNearestNeighbors` (`src/methods/neighbors/k_nearest_neighbors.hpp`)

The header does not compile as it stands: in `brute_force` the parameter `samples` is called `sample` (lines 43, 46), which no
declaration introduces. The model reads `sample` as `samples`, `X.row()` (line 37) as `X.rows()` and `X.rows(i)` (line 38) as
`X.row(i)`. Everything else is as written.
-/

namespace OpenML.Neighbors

variable {α : Type} [Field α] [LinearOrder α]

/-- Lexicographic order of `std::pair<double, DataType>` (`src/methods/neighbors/k_nearest_neighbors.hpp` line 56). -/
def pairLe (p q : α × α) : Bool := decide (p.1 < q.1 ∨ (p.1 = q.1 ∧ p.2 ≤ q.2))

/-- The loop over the training samples (`src/methods/neighbors/k_nearest_neighbors.hpp` lines 37-55). `nrm` is the norm that
`metric_` names, `none` for a name other than "euclidean" and "manhattan". -/
def lookupDist (nrm : Option (List α → α)) (y : List α) (q : List α) : List (List α) → Nat → Res (List (α × α))
  | [], _ => .ok []
  | r :: rs, i => do
    let label ← readAt y i
    let d ← match nrm with
      | none => .throw .invalidArgument
      | some f => if r.length = q.length then .ok (f (List.zipWith (· - ·) r q)) else .ub
    let rest ← lookupDist nrm y q rs (i + 1)
    .ok ((d, label) :: rest)

/-- `lookup_dist.at(i)` for `i` below `num_neighbors_` (`src/methods/neighbors/k_nearest_neighbors.hpp` lines 57-60). -/
def firstLabels (k : Nat) (l : List (α × α)) : Res (List α) :=
  if k ≤ l.length then .ok ((l.take k).map Prod.snd) else .throw .outOfRange

/-- `frequency` (`src/methods/neighbors/k_nearest_neighbors.hpp` lines 61-64): labels with their counters of type `std::size_t`
(64 bits). -/
def frequency (l : List α) : List (α × Nat) := l.dedup.map fun a => (a, l.count a % 2 ^ 64)

/-- The search for the most frequent label (`src/methods/neighbors/k_nearest_neighbors.hpp` lines 65-74). The counter of
`pred_label` starts as `-1` converted to `std::size_t` (line 67). -/
def pickLabel (table : List (α × Nat)) : α :=
  (table.foldl (fun best kv => if kv.2 > best.2 then kv else best) (-1, 2 ^ 64 - 1)).1

/-- `brute_force` (`src/methods/neighbors/k_nearest_neighbors.hpp` lines 32-76). `iter` is the unspecified order in which the
hash table is traversed. -/
def bruteForce (nrm : Option (List α → α)) (iter : List (α × Nat) → List (α × Nat)) (k : Nat) (X : DMat α) (y q : List α) : Res α := do
  let l ← lookupDist nrm y q X.rows 0
  let labels ← firstLabels k (l.mergeSort pairLe)
  .ok (pickLabel (iter (frequency labels)))

/-- `predict` with solver "brute" (`src/methods/neighbors/k_nearest_neighbors.hpp` lines 129-136). -/
def predictBrute (nrm : Option (List α → α)) (iter : List (α × Nat) → List (α × Nat)) (k : Nat) (X : DMat α) (y : List α)
    (queries : List (List α)) : Res (List α) := mapRes (fun q => bruteForce nrm iter k X y q) queries

/-- `pred_label = mode` (`src/methods/neighbors/k_nearest_neighbors.hpp` line 127): a matrix with one row is assigned to a column
vector, which is resized to one row. With assertions this aborts unless the matrix has one column; without assertions the single
entry of the vector is copied. -/
def assignRow (assertions : Bool) (row : List α) : Res (List α) :=
  if assertions ∧ row.length ≠ 1 then .ub
  else match row with
    | [] => .ub
    | a :: _ => .ok [a]

/-- `predict` with solver "kdtree" (`src/methods/neighbors/k_nearest_neighbors.hpp` lines 113-128) on the tree that `fit` has built
(lines 97-103). -/
def predictTree (assertions : Bool) (nrm : List α → α) (Q : PQueue (WithTop α × Nat)) (tree : List (KDTree.Node α)) (k : Nat)
    (y : List α) (queries : List (List α)) : Res (List α) := do
  let answers ← KDTree.query nrm Q tree queries k
  let labels ← mapRes (fun a => mapRes (fun e => readAt y e.2) a) answers
  let m ← Stats.mode ⟨k, labels⟩ 0
  assignRow assertions (m.map Prod.fst)

end OpenML.Neighbors
