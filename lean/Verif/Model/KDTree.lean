import Verif.Model.Argsort
import Verif.Model.PQueue
import Mathlib.Algebra.Order.Ring.Defs
import Mathlib.Algebra.Order.Group.Abs
import Mathlib.Order.WithBot

/-!
# Model of `tree::KDTree` (`src/core/tree/kd_tree.hpp`)

Scalars are an ordered commutative ring (exact arithmetic instead of floating point, no NaN). Infinity occurs only as a heap
key, modelled by `WithTop`. The norm selected by the `metric` argument is a parameter `nrm`; the three norms of the library
are in `Model/Norm.lean`. The unrecognised metric names (lines 379-387), which leave `ord_` uninitialised, are not modelled.
-/

namespace OpenML.KDTree

variable {α : Type} [CommRing α] [LinearOrder α]

/-- A hyper-rectangle: row 0 holds lower, row 1 upper bounds (`src/core/tree/kd_tree.hpp` lines 101-103). -/
structure Rect (α : Type) where
  lo : List α
  hi : List α
deriving DecidableEq, Repr

/-- `KDTreeNode` (`src/core/tree/kd_tree.hpp` lines 26-55). `data` and `indices` are set together (leaves), as are the two
rectangles (branches); `none` is the null pointer. -/
structure Node (α : Type) where
  left : Int
  right : Int
  leaf : Option (List (List α) × List Nat)
  rects : Option (Rect α × Rect α)
deriving DecidableEq, Repr

/-- `NodeInfo` (`src/core/tree/kd_tree.hpp` lines 57-63) without `depth`, which nothing reads. -/
structure Info (α : Type) where
  isLeft : Bool
  index : Nat
  indices : List Nat
  data : List (List α)

/-- `col.minCoeff()` (`src/core/tree/kd_tree.hpp` line 102). -/
def minCoeff : List α → Res α
  | [] => .ub
  | a :: l => .ok (l.foldl min a)

/-- `col.maxCoeff()` (`src/core/tree/kd_tree.hpp` line 103). -/
def maxCoeff : List α → Res α
  | [] => .ub
  | a :: l => .ok (l.foldl max a)

/-- `std::abs(upper_bounds[i] - lower_bounds[i])` of one column (`src/core/tree/kd_tree.hpp` lines 78-83, 87). For a matrix
without rows the C++ value is infinite for each column; the common value is 0 here, and the callers fail anyway. -/
def spread : List α → α
  | [] => 0
  | a :: l => |l.foldl max a - l.foldl min a|

/-- `find_partition_axis` (`src/core/tree/kd_tree.hpp` lines 72-93): first column of largest spread, 0 without columns. -/
def findPartitionAxis (x : DMat α) : Nat :=
  match x.cols.map spread with
  | [] => 0
  | a :: l => visitFrom (fun x b => decide (b < x)) l a 0 1

/-- `common::argsort<MatType, IdxMatType, IdxVecType>(vec, 0)` on a column vector (`src/core/tree/kd_tree.hpp` lines 109-111,
187-189, 267), the only column of the result. -/
def argsortVec (c : List α) : Res (List Nat) := do
  let r ← Argsort.argsort ⟨1, c.map fun a => [a]⟩ 0 false
  readAt r 0

/-- Outcome of sorting a node's rows along its widest axis (`src/core/tree/kd_tree.hpp` lines 108-116, 180-192). -/
structure Sorted (α : Type) where
  axis : Nat
  order : List Nat
  rows : List (List α)
  value : α

/-- Sorting the rows of a node along the partition axis and reading the split value (`src/core/tree/kd_tree.hpp` lines
108-116 for the root, 180-192 for other nodes). `data(indices, Eigen::all)` with an index outside of the data reads out of
bounds. -/
def sortRows (x : DMat α) : Res (Sorted α) := do
  let axis := findPartitionAxis x
  if x.ncols ≤ axis then .ub
  else do
    let order ← argsortVec (x.col axis)
    let rows ← mapRes (readAt x.rows) order
    let row ← readAt rows (x.nrows / 2)
    let value ← readAt row axis
    .ok ⟨axis, order, rows, value⟩

/-- The worklist loop of `build_tree` (`src/core/tree/kd_tree.hpp` lines 145-230); the head of `stk` is the top of the
stack. -/
def buildLoop (ncols leafSize : Nat) : Nat → List (Info α) → List (Node α) → Res (List (Node α))
  | 0, [], t => .ok t
  | 0, _ :: _, _ => .diverge
  | _ + 1, [], t => .ok t
  | fuel + 1, i :: stk, t =>
    match t[i.index]? with
    | none => .throw .outOfRange
    | some p =>
      let t1 := t.set i.index (if i.isLeft then { p with left := t.length } else { p with right := t.length })
      if i.data.length ≤ leafSize then
        buildLoop ncols leafSize fuel stk (t1 ++ [⟨0, 0, some (i.data, i.indices), none⟩])
      else do
        let s ← sortRows ⟨ncols, i.data⟩
        let idx ← mapRes (readAt i.indices) s.order
        let mid := i.data.length / 2
        match p.rects with
        | none => .ub
        | some (lr, rr) =>
          let r := if i.isLeft then lr else rr
          buildLoop ncols leafSize fuel
            (⟨false, t.length, idx.drop mid, s.rows.drop mid⟩ :: ⟨true, t.length, idx.take mid, s.rows.take mid⟩ :: stk)
            (t1 ++ [⟨-1, -1, none, some (⟨r.lo, r.hi.set s.axis s.value⟩, ⟨r.lo.set s.axis s.value, r.hi⟩)⟩])

/-- `build_tree` (`src/core/tree/kd_tree.hpp` lines 95-231), called by both constructors. The root's rectangles are cut at
feature 0 whatever the partition axis is (lines 121-122). Fuel `2 * n` for the worklist is shown to suffice. -/
def build (x : DMat α) (leafSize : Nat) : Res (List (Node α)) := do
  let lo ← mapRes minCoeff x.cols
  let hi ← mapRes maxCoeff x.cols
  let s ← sortRows x
  let mid := x.nrows / 2
  buildLoop x.ncols leafSize (2 * x.nrows)
    [⟨false, 0, s.order.drop mid, s.rows.drop mid⟩, ⟨true, 0, s.order.take mid, s.rows.take mid⟩]
    [⟨-1, -1, none, some (⟨lo, hi.set 0 s.value⟩, ⟨lo.set 0 s.value, hi⟩)⟩]

/-- Clamping a point into a rectangle (`src/core/tree/kd_tree.hpp` lines 237-248). -/
def clampPoint : List α → List α → List α → Res (List α)
  | _, _, [] => .ok []
  | l :: lo, h :: hi, c :: cs => do
    let rest ← clampPoint lo hi cs
    let c1 := if h < c then h else c
    .ok ((if c1 < l then l else c1) :: rest)
  | _, _, _ :: _ => .ub

/-- `check_intersection` (`src/core/tree/kd_tree.hpp` lines 233-252). -/
def checkIntersection (nrm : List α → α) (r : Rect α) (x : List α) (radius : WithTop α) : Res Bool := do
  let c ← clampPoint r.lo r.hi x
  .ok (decide ((nrm (List.zipWith (· - ·) c x) : WithTop α) < radius))

/-- `norm(leaf_data.rowwise() - data, 1, ord_)` (`src/core/tree/kd_tree.hpp` lines 265-266, 343-344); rows and point must
have the same width. -/
def leafDistances (nrm : List α → α) (data : List (List α)) (x : List α) : Res (List α) :=
  mapRes (fun r => if r.length = x.length then .ok (nrm (List.zipWith (· - ·) r x)) else .ub) data

/-- `compute_distance` (`src/core/tree/kd_tree.hpp` lines 254-277). -/
def computeDistance (nrm : List α → α) (x : List α) (data : List (List α)) (indices : List Nat) (k : Nat) :
    Res (List (WithTop α × Nat)) := do
  let k := if data.length ≤ k then data.length else k
  let dist ← leafDistances nrm data x
  let order ← argsortVec dist
  mapRes (fun i => do
    let d ← readAt dist i
    let j ← readAt indices i
    .ok ((d : WithTop α), j)) (order.take k)

/-- Pushing one leaf's candidates, keeping at most `k` (`src/core/tree/kd_tree.hpp` lines 301-307). -/
def pushAll (Q : PQueue (WithTop α × Nat)) (k : Nat) : List (WithTop α × Nat) → Q.σ → Q.σ
  | [], h => h
  | e :: es, h =>
    let h1 := Q.push h e
    pushAll Q k es (if k < (Q.elems h1).length then Q.pop h1 else h1)

/-- `node_stk.push(tree_->at(i))` if the condition holds (`src/core/tree/kd_tree.hpp` lines 312-319, 363-370). -/
def pushIf (tree : List (Node α)) (b : Bool) (i : Int) (stk : List (Node α)) : Res (List (Node α)) :=
  if b then
    if i < 0 then .throw .outOfRange
    else match tree[i.toNat]? with
      | none => .throw .outOfRange
      | some n => .ok (n :: stk)
  else .ok stk

/-- The traversal of `query_single_data` (`src/core/tree/kd_tree.hpp` lines 293-321). `nrmP` is the norm in `minkowski_distance` (line
250) and `nrm` the one in `common::norm` (line 266): with rounding they may differ, because Eigen adds up the entries of a row vector and
the rows of a matrix in different orders. -/
def queryLoop (nrmP nrm : List α → α) (Q : PQueue (WithTop α × Nat)) (tree : List (Node α)) (x : List α) (k : Nat) :
    Nat → List (Node α) → Q.σ → Res Q.σ
  | 0, [], h => .ok h
  | 0, _ :: _, _ => .diverge
  | _ + 1, [], h => .ok h
  | fuel + 1, node :: stk, h =>
    match node.leaf with
    | some (data, indices) => do
      let nn ← computeDistance nrm x data indices k
      queryLoop nrmP nrm Q tree x k fuel stk (pushAll Q k nn h)
    | none =>
      match Q.top h, node.rects with
      | some e, some (lr, rr) => do
        let bl ← checkIntersection nrmP lr x e.1
        let stk1 ← pushIf tree bl node.left stk
        let br ← checkIntersection nrmP rr x e.1
        let stk2 ← pushIf tree br node.right stk1
        queryLoop nrmP nrm Q tree x k fuel stk2 h
      | _, _ => .ub

/-- Emptying the heap into the result from its last position to its first (`src/core/tree/kd_tree.hpp` lines 322-326). -/
def drain (Q : PQueue (WithTop α × Nat)) : Nat → Q.σ → List (WithTop α × Nat) → Res (List (WithTop α × Nat))
  | 0, _, acc => .ok acc
  | n + 1, h, acc =>
    match Q.top h with
    | none => .ub
    | some e => drain Q n (Q.pop h) (e :: acc)

/-- The heap holding `k` copies of `(infinity, 0)` (`src/core/tree/kd_tree.hpp` lines 287-290). -/
def initHeap (Q : PQueue (WithTop α × Nat)) : Nat → Q.σ
  | 0 => Q.empty
  | n + 1 => Q.push (initHeap Q n) (⊤, 0)

/-- `query_single_data` (`src/core/tree/kd_tree.hpp` lines 279-327) with separate norms for boxes and rows. -/
def querySingleWith (nrmP nrm : List α → α) (Q : PQueue (WithTop α × Nat)) (tree : List (Node α)) (x : List α) (k : Nat) :
    Res (List (WithTop α × Nat)) :=
  match tree[0]? with
  | none => .throw .outOfRange
  | some root => do
    let h ← queryLoop nrmP nrm Q tree x k tree.length [root] (initHeap Q k)
    drain Q k h []

/-- `query_single_data` (`src/core/tree/kd_tree.hpp` lines 279-327) in exact arithmetic, where both norms are the same. -/
def querySingle (nrm : List α → α) (Q : PQueue (WithTop α × Nat)) (tree : List (Node α)) (x : List α) (k : Nat) :
    Res (List (WithTop α × Nat)) := querySingleWith nrm nrm Q tree x k

/-- `query` (`src/core/tree/kd_tree.hpp` lines 403-424): one list of (distance, row number) per query row. -/
def query (nrm : List α → α) (Q : PQueue (WithTop α × Nat)) (tree : List (Node α)) (queries : List (List α)) (k : Nat) :
    Res (List (List (WithTop α × Nat))) := mapRes (fun x => querySingle nrm Q tree x k) queries

/-- Rows of a leaf within the radius (`src/core/tree/kd_tree.hpp` lines 346-359). -/
def selectWithin (radius : α) : List α → List Nat → Res (List (α × Nat))
  | [], _ => .ok []
  | d :: ds, is => do
    let rest ← selectWithin radius ds is.tail
    if d ≤ radius then
      match is with
      | [] => .ub
      | i :: _ => .ok ((d, i) :: rest)
    else .ok rest

/-- The traversal of `query_radius_single_data` (`src/core/tree/kd_tree.hpp` lines 332-371). -/
def radiusLoop (nrmP nrm : List α → α) (tree : List (Node α)) (x : List α) (radius : α) :
    Nat → List (Node α) → List (α × Nat) → Res (List (α × Nat))
  | 0, [], acc => .ok acc
  | 0, _ :: _, _ => .diverge
  | _ + 1, [], acc => .ok acc
  | fuel + 1, node :: stk, acc =>
    match node.leaf with
    | some (data, indices) => do
      let dist ← leafDistances nrm data x
      let found ← selectWithin radius dist indices
      radiusLoop nrmP nrm tree x radius fuel stk (acc ++ found)
    | none =>
      match node.rects with
      | some (lr, rr) => do
        let bl ← checkIntersection nrmP lr x radius
        let stk1 ← pushIf tree bl node.left stk
        let br ← checkIntersection nrmP rr x radius
        let stk2 ← pushIf tree br node.right stk1
        radiusLoop nrmP nrm tree x radius fuel stk2 acc
      | none => .ub

/-- `query_radius_single_data` (`src/core/tree/kd_tree.hpp` lines 329-372) with separate norms for boxes and rows. -/
def radiusSingleWith (nrmP nrm : List α → α) (tree : List (Node α)) (x : List α) (radius : α) : Res (List (α × Nat)) :=
  match tree[0]? with
  | none => .throw .outOfRange
  | some root => radiusLoop nrmP nrm tree x radius tree.length [root] []

/-- `query_radius_single_data` (`src/core/tree/kd_tree.hpp` lines 329-372) in exact arithmetic, where both norms are the same. -/
def radiusSingle (nrm : List α → α) (tree : List (Node α)) (x : List α) (radius : α) : Res (List (α × Nat)) :=
  radiusSingleWith nrm nrm tree x radius

/-- `query_radius` (`src/core/tree/kd_tree.hpp` lines 426-440): queries without a hit leave no entry in the answer. -/
def queryRadius (nrm : List α → α) (tree : List (Node α)) (queries : List (List α)) (radius : α) :
    Res (List (List (α × Nat))) := do
  let answers ← mapRes (fun x => radiusSingle nrm tree x radius) queries
  .ok (answers.filter fun a => !a.isEmpty)

end OpenML.KDTree
