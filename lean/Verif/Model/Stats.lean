import Verif.Model.MatOps
import Mathlib.Algebra.Order.Field.Basic
import Mathlib.Algebra.BigOperators.Group.List.Basic
import Mathlib.Algebra.Order.Group.Unbundled.Abs

/-!
# Models of the statistics in `src/core/math/ops.hpp`

Scalars are a field with a linear order, computed exactly. `none` in a result stands for NaN (a quotient 0/0).
-/

namespace OpenML.Stats

variable {α : Type} [Field α] [LinearOrder α]

/-- `mean()` of one line of a partial reduction (`src/core/math/ops.hpp` lines 43, 50, 103, 106): 0/0 on an empty line. -/
def meanLine (l : List α) : Option α := if l = [] then none else some (l.sum / (l.length : α))

/-- `var` of one line (`src/core/math/ops.hpp` lines 43-45, 50-52, 57-60): mean of squares minus square of the mean. -/
def varLine (l : List α) : Option α := do
  let m ← meanLine l
  let s ← meanLine (l.map fun a => a * a)
  some (s - m * m)

/-- The axis dispatch shared by `var`, `sum` and `mean` (`src/core/math/ops.hpp` lines 42-65, 77-90, 102-115): the result
is a row for axis 0, a column for axis 1 and a single entry for axis -1. -/
def reduce {β : Type} (f : List α → β) (flat : List α → Res β) (x : DMat α) (axis : Int) : Res (DMat β) :=
  if axis = 0 then .ok ⟨x.ncols, [x.cols.map f]⟩
  else if axis = 1 then .ok ⟨1, x.rows.map fun r => [f r]⟩
  else if axis = -1 then do
    let v ← flat (MatOps.flattenMat x)
    .ok ⟨1, [[v]]⟩
  else .throw .invalidArgument

/-- Full reductions `mean()` of an empty matrix violate an Eigen assertion (`src/core/math/ops.hpp` lines 57, 110). -/
def nonEmpty (f : List α → Option α) (l : List α) : Res (Option α) := if l = [] then .ub else .ok (f l)

/-- `math::var(x, axis)` (`src/core/math/ops.hpp` lines 38-66). -/
def var (x : DMat α) (axis : Int) : Res (DMat (Option α)) := reduce varLine (nonEmpty varLine) x axis

/-- `math::sum(x, axis)` (`src/core/math/ops.hpp` lines 74-91). -/
def sum (x : DMat α) (axis : Int) : Res (DMat α) := reduce List.sum (fun l => .ok l.sum) x axis

/-- `math::mean(x, axis)` (`src/core/math/ops.hpp` lines 99-116). -/
def mean (x : DMat α) (axis : Int) : Res (DMat (Option α)) := reduce meanLine (nonEmpty meanLine) x axis

/-- `median` of one line (`src/core/math/ops.hpp` lines 135-146, 152-164, 168-184). `nth l k` is the content of the buffer
after `std::nth_element` for position `k`; the second call works on the buffer left by the first. An empty line reads out of
bounds. -/
def medianLine (nth : List α → Nat → List α) (l : List α) : Res α := do
  let index := l.length / 2
  let b1 := nth l index
  let value ← readAt b1 index
  if l.length % 2 = 0 then do
    let b2 := nth b1 (index - 1)
    let v2 ← readAt b2 (index - 1)
    .ok ((value + v2) / 2)
  else .ok value

/-- `math::median(x, axis)` (`src/core/math/ops.hpp` lines 124-187); for other axes control flows off the end. -/
def median (nth : List α → Nat → List α) (x : DMat α) (axis : Int) : Res (List α) :=
  if axis = 0 then mapRes (medianLine nth) x.cols
  else if axis = 1 then mapRes (medianLine nth) x.rows
  else if axis = -1 then mapRes (medianLine nth) [MatOps.flattenMat x]
  else .ub

/-- `math::center(x)` (`src/core/math/ops.hpp` lines 196-199): subtract the column means; without rows nothing is
computed. -/
def center (x : DMat α) : DMat α :=
  { x with rows := x.rows.map fun r => List.zipWith (fun a c => a - c.sum / (x.nrows : α)) r x.cols }

/-- `std::partial_sum` (`src/core/math/ops.hpp` lines 262, 270, 278) with the sum `acc` so far. -/
def partialSums (acc : α) : List α → List α
  | [] => []
  | a :: l => (acc + a) :: partialSums (acc + a) l

/-- Columns as rows: assembling a matrix from its columns (`src/core/math/ops.hpp` line 263). -/
def ofCols (nrows : Nat) (cols : List (List α)) : DMat α :=
  ⟨cols.length, (List.range nrows).map fun i => cols.filterMap (·[i]?)⟩

/-- `math::cumsum(x, axis)` (`src/core/math/ops.hpp` lines 254-282); for other axes an uninitialised matrix is returned. -/
def cumsum (x : DMat α) (axis : Int) : Res (DMat α) :=
  if axis = 0 then .ok (ofCols x.nrows (x.cols.map (partialSums 0)))
  else if axis = 1 then .ok ⟨x.ncols, x.rows.map (partialSums 0)⟩
  else if axis = -1 then .ok ⟨1, (partialSums 0 (MatOps.flattenMat x)).map fun a => [a]⟩
  else .ub

/-- The counting loop of `mode` (`src/core/math/ops.hpp` lines 304-310, 326-332): `seen` are the earlier elements (what the
table `lookups` counts), `best` the most frequent one so far. -/
def modeLoop : List α → List α → Option α → Nat → Option α × Nat
  | [], _, best, m => (best, m)
  | a :: l, seen, best, m =>
    let f := seen.count a + 1
    if m < f then modeLoop l (a :: seen) (some a) f else modeLoop l (a :: seen) best m

/-- `mode` of one line (`src/core/math/ops.hpp` lines 300-315, 322-337): an empty line copies an uninitialised value. -/
def modeLine (l : List α) : Res (α × Nat) :=
  match modeLoop l [] none 0 with
  | (none, _) => .ub
  | (some a, m) => if m = 1 then .ok (l.foldl min a, m) else .ok (a, m)

/-- `math::mode(x, axis)` (`src/core/math/ops.hpp` lines 291-341) as the list of (value, count) per line; other axes return
empty matrices. -/
def mode (x : DMat α) (axis : Int) : Res (List (α × Nat)) :=
  if axis = 0 then mapRes modeLine x.cols
  else if axis = 1 then mapRes modeLine x.rows
  else .ok []

end OpenML.Stats
