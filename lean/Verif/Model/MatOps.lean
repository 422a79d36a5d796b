import Verif.Model.Eigen

/-!
# Models of small matrix helpers of `src/core/common.hpp`
-/

namespace OpenML.MatOps

/-- `common::flatten` of a matrix (`src/core/common.hpp` lines 74-81): the column-major storage of the transpose, i.e.
the rows one after the other. -/
def flattenMat {α : Type} (x : DMat α) : List α := x.rows.flatten

/-- `common::argmax(x, axis)` (`src/core/common.hpp` lines 116-149). -/
def argmax {α : Type} [LinearOrder α] (x : DMat α) (axis : Int) : Res (List Nat) :=
  if axis = 1 then mapRes maxCoeffIdx x.rows
  else if axis = 0 then mapRes maxCoeffIdx x.cols
  else if axis = -1 then do
    let i ← maxCoeffIdx (flattenMat x)
    .ok [i]
  else .throw .invalidArgument

/-- `common::argmin(x, axis)` (`src/core/common.hpp` lines 160-193). -/
def argmin {α : Type} [LinearOrder α] (x : DMat α) (axis : Int) : Res (List Nat) :=
  if axis = 1 then mapRes minCoeffIdx x.rows
  else if axis = 0 then mapRes minCoeffIdx x.cols
  else if axis = -1 then do
    let i ← minCoeffIdx (flattenMat x)
    .ok [i]
  else .throw .invalidArgument

/-- The loop of `common::where` (`src/core/common.hpp` lines 448-458) from position `i`. -/
def whereFrom {α : Type} [DecidableEq α] [Zero α] : List α → Nat → List Nat
  | [], _ => []
  | a :: l, i => if a ≠ 0 then i :: whereFrom l (i + 1) else whereFrom l (i + 1)

/-- `common::where(x)` (`src/core/common.hpp` lines 448-458). -/
def where' {α : Type} [DecidableEq α] [Zero α] (x : List α) : List Nat := whereFrom x 0

/-- `common::clip(x, max, min)` per entry (`src/core/common.hpp` lines 465-468): `x.min(max).max(min)`. -/
def clip {α : Type} [LinearOrder α] (hi lo : α) (x : DMat α) : DMat α :=
  { x with rows := x.rows.map (·.map fun a => max (min a hi) lo) }

/-- `common::fmin(x, y)` (`src/core/common.hpp` lines 348-352): `(x >= y).select(y, x)`. -/
def fmin {α : Type} [LinearOrder α] (x : DMat α) (y : α) : DMat α :=
  { x with rows := x.rows.map (·.map fun a => if y ≤ a then y else a) }

/-- `common::hstack(x1, x2)` (`src/core/common.hpp` lines 27-37). -/
def hstack {α : Type} (x1 x2 : DMat α) : Res (DMat α) :=
  if x1.nrows ≠ x2.nrows then .throw .invalidArgument
  else .ok { ncols := x1.ncols + x2.ncols, rows := x1.rows.zipWith (· ++ ·) x2.rows }

/-- `common::vstack(x1, x2)` (`src/core/common.hpp` lines 45-56). -/
def vstack {α : Type} (x1 x2 : DMat α) : Res (DMat α) :=
  if x1.ncols ≠ x2.ncols then .throw .invalidArgument
  else .ok { ncols := x1.ncols, rows := x1.rows ++ x2.rows }

/-- `common::repeat(x, repeats, axis)` (`src/core/common.hpp` lines 91-104): `colwise().replicate(n)` puts `n` copies of the
matrix below each other, `rowwise().replicate(n)` beside each other; any other axis returns a default (empty) matrix. A
negative `repeats` is not modelled. -/
def repeat' {α : Type} (x : DMat α) (n : Nat) (axis : Int) : DMat α :=
  if axis = 0 then { ncols := x.ncols, rows := (List.replicate n x.rows).flatten }
  else if axis = 1 then { ncols := n * x.ncols, rows := x.rows.map fun r => (List.replicate n r).flatten }
  else { ncols := 0, rows := [] }

/-- `common::vec2mat` on a vector of vectors (`src/core/common.hpp` lines 362-385): `vec.at(0)` throws `out_of_range` on an
empty table, `&vec[0][0]` on an empty first row is undefined, a later row of different length throws. -/
def vec2mat {α : Type} (v : List (List α)) : Res (DMat α) :=
  match v with
  | [] => .throw .outOfRange
  | [] :: _ => .ub
  | (a :: r) :: rest =>
    if ∃ q ∈ rest, q.length ≠ (a :: r).length then .throw .invalidArgument
    else .ok { ncols := (a :: r).length, rows := (a :: r) :: rest }

end OpenML.MatOps
