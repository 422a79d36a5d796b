import Verif.Model.Eigen

/-!
# Models of `common::sort` (matrix and vector-of-vectors) and `common::sortrows`
(`src/core/common.hpp` lines 288-343, 569-641, 711-761)
-/

namespace OpenML.Sort2D

/-- `std::sort` of plain values in either direction (`src/core/common.hpp` lines 313-330, 611-629): unique result on a
linear order, modelled by insertion sort. -/
def sortValues {α : Type} [LinearOrder α] (reverse : Bool) (l : List α) : List α :=
  if reverse then l.insertionSort (fun a b => b ≤ a) else l.insertionSort (fun a b => a ≤ b)

/-- `common::sort(const MatType&, axis, reverse)` (`src/core/common.hpp` lines 298-343); the result lists the sorted rows
(axis 1) or the sorted columns (axis 0). -/
def sortMat {α : Type} [LinearOrder α] (x : DMat α) (axis : Int) (reverse : Bool) : Res (List (List α)) :=
  if axis = 1 then .ok (x.rows.map (sortValues reverse))
  else if axis = 0 then .ok (x.cols.map (sortValues reverse))
  else .throw .invalidArgument

/-- Comparator on whole rows used for column `i` (`src/core/common.hpp` lines 592-594, 603-605). Rows shorter than
`i + 1` are caught before sorting. -/
def colLt {α : Type} [LinearOrder α] (reverse : Bool) (i : Nat) (v1 v2 : List α) : Bool :=
  match v1[i]?, v2[i]? with
  | some a, some b => if reverse then decide (b < a) else decide (a < b)
  | _, _ => false

/-- `result[j][i] = copy_x[j][i]` for all rows `j` (`src/core/common.hpp` lines 596-597, 606-607). -/
def storeColumn {α : Type} (i : Nat) : List (List α) → List (List α) → List (List α)
  | r :: rs, c :: cs =>
    (match c[i]? with
      | some v => r.set i v
      | none => r) :: storeColumn i rs cs
  | rs, _ => rs

/-- The loop over columns of `sort` with axis 0 (`src/core/common.hpp` lines 590-609) from column `i` on; the first
argument is fuel. The bound `copy_x[0].size()` is read again in every round, so it is the length of the row that is
currently first. `std::sort` leaves the order of rows with equal keys open; it is the parameter `sorter`. A row without
column `i` is read out of bounds. -/
def sortColumns {α : Type} [LinearOrder α] (sorter : (List α → List α → Bool) → List (List α) → List (List α))
    (reverse : Bool) : Nat → Nat → List (List α) → List (List α) → Res (List (List α))
  | 0, _, _, _ => .diverge
  | n + 1, i, copy, result =>
    if (copy.headD []).length ≤ i then .ok result
    else if ∃ r ∈ copy, r.length ≤ i then .ub
    else
      let copy' := sorter (colLt reverse i) copy
      sortColumns sorter reverse n (i + 1) copy' (storeColumn i result copy')

/-- `common::sort` on a vector of vectors (`src/core/common.hpp` lines 579-641). Fuel: after as many rounds as the first
row has entries, either the loop ends or that row is read out of bounds. -/
def sort2D {α : Type} [LinearOrder α] (sorter : (List α → List α → Bool) → List (List α) → List (List α))
    (x : List (List α)) (axis : Int) (reverse : Bool) : Res (List (List α)) :=
  match x with
  | [] => .throw .invalidArgument
  | [] :: _ => .throw .invalidArgument
  | (a :: r) :: rest =>
    if axis = 0 then sortColumns sorter reverse ((a :: r).length + 1) 0 ((a :: r) :: rest) ((a :: r) :: rest)
    else if axis = 1 then .ok (((a :: r) :: rest).map (sortValues reverse))
    else .throw .invalidArgument

/-- The comparators `asc` / `desc` of `sortrows` (`src/core/common.hpp` lines 731-752): equal rows make the loop end
without reaching a `return`; a shorter second row is read out of bounds. -/
def rowLt {α : Type} [LinearOrder α] (reverse : Bool) : List α → List α → Res Bool
  | [], _ => .ub
  | _ :: _, [] => .ub
  | a :: as, b :: bs =>
    if a = b then rowLt reverse as bs else .ok (if reverse then decide (b < a) else decide (a < b))

/-- Two rows whose comparison (`src/core/common.hpp` lines 729-751) is defined in both directions. -/
def comparable {α : Type} [LinearOrder α] (v w : List α) : Bool :=
  match rowLt false v w, rowLt false w v with
  | .ok _, .ok _ => true
  | _, _ => false

/-- `common::sortrows(x, reverse)` (`src/core/common.hpp` lines 721-761). `std::sort` requires the comparator to be
defined on every pair it may form; if two rows at different positions cannot be compared the call is undefined. When all
rows are comparable the order is strict and total, so the sorted arrangement is unique. -/
def sortrows {α : Type} [LinearOrder α] (x : List (List α)) (reverse : Bool) : Res (List (List α)) :=
  match x with
  | [] => .throw .invalidArgument
  | [] :: _ => .throw .invalidArgument
  | (a :: r) :: rest =>
    let y := (a :: r) :: rest
    if y.Pairwise (fun v w => comparable v w = true) then
      .ok (y.insertionSort (fun v w => rowLt reverse w v ≠ .ok true))
    else .ub

end OpenML.Sort2D
