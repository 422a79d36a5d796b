import Verif.Model.Res

/-!
# Model of `common::combinations` (`src/core/common.hpp` lines 482-512)
-/

namespace OpenML.Combinations

/-- Split `xs` around its last element that is less than `x`; `none` if there is none. This is the backward scan
`while (!(*--j < *i))` of `std::prev_permutation` (called from `src/core/common.hpp` line 509; the standard algorithm
is transcribed from its reference implementation). -/
def splitLastLess {α : Type} (lt : α → α → Bool) (x : α) : List α → Option (List α × α × List α)
  | [] => none
  | y :: ys =>
    match splitLastLess lt x ys with
    | some (as, a, bs) => some (y :: as, a, bs)
    | none => if lt y x then some ([], y, ys) else none

/-- The pivot test and the swap-and-reverse step of `std::prev_permutation` (called from `src/core/common.hpp` line
509) at a position holding `x` with the tail `xs` behind it. -/
def pivotStep {α : Type} (lt : α → α → Bool) (x : α) (xs : List α) : Option (List α) :=
  match xs.head? with
  | none => none
  | some y =>
    if lt y x then
      match splitLastLess lt x xs with
      | some (as, a, bs) => some (a :: (as ++ x :: bs).reverse)
      | none => none
    else none

/-- `std::prev_permutation` (called from `src/core/common.hpp` line 509): look from the right for the first position
`i` with `*(i+1) < *i`, swap it with the last smaller element behind it and reverse the tail. `none` is the return
value `false`; the reordering done by the library in that case is not observed by the caller. -/
def prevPermutation {α : Type} (lt : α → α → Bool) : List α → Option (List α)
  | [] => none
  | x :: xs =>
    match prevPermutation lt xs with
    | some ys => some (x :: ys)
    | none => pivotStep lt x xs

/-- Order on `bool` used by `std::prev_permutation` on `std::vector<bool>` (`src/core/common.hpp` line 509): `false < true`. -/
def boolLt (a b : Bool) : Bool := !a && b

/-- The inner loop of `combinations` (`src/core/common.hpp` lines 503-507): collect the entries whose mask bit is set.
Mask and data have the same length in every call. -/
def select {α : Type} : List Bool → List α → List α
  | b :: bs, x :: xs => if b then x :: select bs xs else select bs xs
  | _, _ => []

/-- The `do … while (std::prev_permutation(…))` loop (`src/core/common.hpp` lines 501-509), with fuel; running out of
fuel is `diverge`. -/
def loop {α : Type} (x : List α) : Nat → List Bool → Res (List (List α))
  | 0, _ => .diverge
  | fuel + 1, mask =>
    match prevPermutation boolLt mask with
    | none => .ok [select mask x]
    | some mask' => (loop x fuel mask').bind fun rest => .ok (select mask x :: rest)

/-- `common::combinations(x, k)` (`src/core/common.hpp` lines 489-512) with a given amount of fuel for the loop.
`bitset(k, 1)` followed by `resize(x.size(), 0)` is `k` ones followed by zeros. -/
def combinationsFuel {α : Type} (fuel : Nat) (x : List α) (k : Nat) : Res (List (List α)) :=
  if x.length < k then .ok []
  else loop x fuel (List.replicate k true ++ List.replicate (x.length - k) false)

/-- `common::combinations(x, k)` (`src/core/common.hpp` lines 489-512); `2 ^ |x|` iterations are more than there are
masks. -/
def combinations {α : Type} (x : List α) (k : Nat) : Res (List (List α)) :=
  combinationsFuel (2 ^ x.length) x k

end OpenML.Combinations
