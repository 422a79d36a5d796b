import Verif.Model.Eigen

/-!
# Model of the matrix `common::argsort` (`src/core/common.hpp` lines 195-286)
-/

namespace OpenML.Argsort

/-- Comparison used for sorting indices (`src/core/common.hpp` lines 240-242, 250-252, 263-265, 273-275) as the
non-strict relation a stable insertion sort needs: `i` may stay in front of `j`. Out-of-range positions never occur here
(`sortLine` guards). -/
def keyLe {α : Type} [LinearOrder α] (line : List α) (reverse : Bool) (i j : Nat) : Prop :=
  match line[i]?, line[j]? with
  | some a, some b => if reverse then b ≤ a else a ≤ b
  | _, _ => True

/-- The comparison of `keyLe` can be carried out (`src/core/common.hpp` lines 240-242, 250-252). -/
instance {α : Type} [LinearOrder α] (line : List α) (reverse : Bool) : DecidableRel (keyLe line reverse) := by
  intro i j
  unfold keyLe
  split
  · exact inferInstance
  · exact inferInstance

/-- One `std::stable_sort` of the index vector for one row or column (`src/core/common.hpp` lines 239-243 and its three
copies). With at least two indices each of them is passed to the comparator, so an index outside of the line is an
out-of-bounds read; a single index is never compared. Insertion sort is stable. -/
def sortLine {α : Type} [LinearOrder α] (line : List α) (reverse : Bool) (idx : List Nat) : Res (List Nat) :=
  if 2 ≤ idx.length ∧ ∃ i ∈ idx, line.length ≤ i then .ub
  else .ok (idx.insertionSort (keyLe line reverse))

/-- The loop over lines (`src/core/common.hpp` lines 236-283): the index vector is *not* reset between lines. -/
def sortLines {α : Type} [LinearOrder α] (reverse : Bool) : List Nat → List (List α) → Res (List (List Nat))
  | _, [] => .ok []
  | idx, line :: ls => do
    let idx' ← sortLine line reverse idx
    let rest ← sortLines reverse idx' ls
    .ok (idx' :: rest)

/-- `common::argsort(x, axis, reverse)` (`src/core/common.hpp` lines 209-286). The result lists the index vector of each
line: rows for axis 1, columns for axis 0. -/
def argsort {α : Type} [LinearOrder α] (x : DMat α) (axis : Int) (reverse : Bool) : Res (List (List Nat)) :=
  if axis = 1 then sortLines reverse (linSpaced x.ncols 0 x.ncols) x.rows
  else if axis = 0 then sortLines reverse (linSpaced x.nrows 0 x.nrows) x.cols
  else .throw .invalidArgument

end OpenML.Argsort
