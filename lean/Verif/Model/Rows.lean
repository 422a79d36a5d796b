import Verif.Model.Res

/-!
# Model of `common::remove_duplicate_rows` (`src/core/common.hpp` lines 643-697)
-/

namespace OpenML.Rows

/-- Local variables of the search loop (`src/core/common.hpp` lines 656-663): `num_searches`, `cur_idx`, `it`,
`indices` (0/1 flags) and `unique_inds`. -/
structure State where
  numSearches : Nat
  curIdx : Nat
  it : Nat
  indices : List Bool
  uniqueInds : List Nat
deriving DecidableEq, Repr

/-- The inner loop `while (indices[cur_idx]) ++cur_idx;` (`src/core/common.hpp` lines 668-670) applied to the flags
from position `i` on; running off the end of `indices` is an out-of-bounds read. -/
def nextFree : List Bool → Nat → Res Nat
  | [], _ => .ub
  | b :: bs, i => if b then nextFree bs (i + 1) else .ok i

/-- The duplicate test and mark at the end of the loop body (`src/core/common.hpp` lines 681-685). -/
def markStep {α : Type} [DecidableEq α] (X : List (List α)) (s : State) : Res State := do
  let flag ← readAt s.indices s.it
  if flag then
    .ok { s with it := s.it + 1 }
  else
    let a ← readAt X s.curIdx
    let b ← readAt X s.it
    if a = b then
      .ok { s with indices := s.indices.set s.it true, numSearches := s.numSearches + 1, it := s.it + 1 }
    else
      .ok { s with it := s.it + 1 }

/-- The loop `while(num_searches < nrows)` (`src/core/common.hpp` lines 664-686), returning `unique_inds`. -/
def loop {α : Type} [DecidableEq α] (X : List (List α)) : Nat → State → Res (List Nat)
  | 0, _ => .diverge
  | fuel + 1, s =>
    if s.numSearches < X.length then
      if X.length ≤ s.it then do
        let cur ← nextFree (s.indices.drop (s.curIdx + 1)) (s.curIdx + 1)
        let s' : State := { s with
          curIdx := cur, uniqueInds := s.uniqueInds ++ [cur], numSearches := s.numSearches + 1, it := cur + 1 }
        if X.length ≤ s'.it ∧ X.length = s'.numSearches then .ok s'.uniqueInds
        else do
          let s'' ← markStep X s'
          loop X fuel s''
      else do
        let s' ← markStep X s
        loop X fuel s'
    else .ok s.uniqueInds

/-- Copy the rows at the collected positions (`src/core/common.hpp` lines 688-696). -/
def gather {α : Type} (X : List (List α)) : List Nat → Res (List (List α))
  | [] => .ok []
  | i :: is => do
    let r ← readAt X i
    let rs ← gather X is
    .ok (r :: rs)

/-- `common::remove_duplicate_rows(X)` (`src/core/common.hpp` lines 650-697) with a given amount of fuel. -/
def removeDuplicateRowsFuel {α : Type} [DecidableEq α] (fuel : Nat) (X : List (List α)) : Res (List (List α)) :=
  match X with
  | [] => .throw .invalidArgument
  | [] :: _ => .throw .invalidArgument
  | (_ :: _) :: _ => do
    let inds ← loop X fuel
      { numSearches := 1, curIdx := 0, it := 1, indices := (List.replicate X.length false).set 0 true, uniqueInds := [0] }
    gather X inds

/-- `common::remove_duplicate_rows(X)` (`src/core/common.hpp` lines 650-697); the fuel bounds the number of pairs
(current row, compared row). -/
def removeDuplicateRows {α : Type} [DecidableEq α] (X : List (List α)) : Res (List (List α)) :=
  removeDuplicateRowsFuel ((X.length + 1) * (X.length + 1)) X

end OpenML.Rows
