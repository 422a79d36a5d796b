import Verif.Model.Res
import Mathlib.Data.List.Sort

/-!
# Models of the `std::vector` helpers of `src/core/common.hpp`

`std::sort` and `std::stable_sort` on plain values of a linear order are modelled by insertion sort: for a linear order
the sorted rearrangement is unique.
-/

namespace OpenML.VecOps

/-- `std::sort(v.begin(), v.end())` on values of a linear order (as used in `src/core/common.hpp` lines 423, 780-781);
unique result, hence any sorting algorithm will do. -/
def stdSort {α : Type} [LinearOrder α] (l : List α) : List α := l.insertionSort (· ≤ ·)

/-- The inner search loop of `contains` (`src/core/common.hpp` lines 525-530). -/
def findIn {α : Type} [DecidableEq α] (a : α) : List α → Bool
  | [] => false
  | b :: bs => if a = b then true else findIn a bs

/-- `common::contains(v1, v2)` (`src/core/common.hpp` lines 520-536). -/
def contains {α : Type} [DecidableEq α] : List α → List α → Bool
  | [], _ => true
  | a :: as, v2 => if findIn a v2 then contains as v2 else false

/-- `common::merge(v1, v2)` (`src/core/common.hpp` lines 544-566): alternate while both last, then append the rest. -/
def merge {α : Type} : List α → List α → List α
  | a :: as, b :: bs => a :: b :: merge as bs
  | [], bs => bs
  | as, [] => as

/-- `common::is_equal(x, y)` (`src/core/common.hpp` lines 705-709): `std::mismatch(x.begin(), x.end(), y.begin())` reads
`y` as long as `x` lasts; reading `y.end()` is undefined. -/
def isEqual {α : Type} [DecidableEq α] : List α → List α → Res Bool
  | [], ys => .ok ys.isEmpty
  | _ :: _, [] => .ub
  | x :: xs, y :: ys => if x = y then isEqual xs ys else .ok false

/-- `common::flatten` on a vector of vectors (`src/core/common.hpp` lines 60-67): `std::accumulate` appending each row. -/
def flatten {α : Type} (v : List (List α)) : List α := v.foldl (fun dest src => dest ++ src) []

/-- `std::unique` (called in `src/core/common.hpp` line 785) behind a kept element `a`. -/
def uniqueFrom {α : Type} [DecidableEq α] (a : α) : List α → List α
  | [] => []
  | b :: l => if a = b then uniqueFrom a l else b :: uniqueFrom b l

/-- `std::unique` (called in `src/core/common.hpp` line 785): drop elements equal to their kept predecessor. -/
def stdUnique {α : Type} [DecidableEq α] : List α → List α
  | [] => []
  | a :: l => a :: uniqueFrom a l

/-- `std::set_difference` (called in `src/core/common.hpp` lines 785-786). The repeated branch that only advances the
second range while its head is smaller is written with `dropWhile`. -/
def setDifference {α : Type} [LinearOrder α] : List α → List α → List α
  | [], _ => []
  | a :: as, bs =>
    match bs.dropWhile (fun b => decide (b < a)) with
    | [] => a :: as
    | b :: bs' => if a < b then a :: setDifference as (b :: bs') else setDifference as bs'

/-- `common::difference(v1, v2, sorted)` (`src/core/common.hpp` lines 767-788). The NaN assertion is vacuous over a linear
order. -/
def difference {α : Type} [LinearOrder α] (v1 v2 : List α) (sorted : Bool) : List α :=
  let c1 := if sorted then stdSort v1 else v1
  let c2 := if sorted then stdSort v2 else v2
  setDifference (stdUnique c1) c2

/-- The insertion loop of `unique` (`src/core/common.hpp` lines 427-434) over the sorted copy: `seen` are the keys of
`hash_map`, `i` the loop counter; collects `stdvec_value` and the elements of `hash_set` (increasing, because `i` is). -/
def uniqueLoop {α : Type} [DecidableEq α] : List α → Nat → List α → List α × List Nat
  | [], _, _ => ([], [])
  | a :: l, i, seen =>
    if a ∈ seen then uniqueLoop l (i + 1) seen
    else
      let r := uniqueLoop l (i + 1) (a :: seen)
      (a :: r.1, i :: r.2)

/-- `common::unique(x)` for a column vector (`src/core/common.hpp` lines 406-441); the returned indices are numbers
stored in the scalar type of `x`, modelled as naturals. -/
def unique {α : Type} [LinearOrder α] (x : List α) : List α × List Nat := uniqueLoop (stdSort x) 0 []

/-- Subtraction of `std::size_t` values (`src/core/common.hpp` lines 845-859, 884-890): modulo `2^64`. -/
def subU64 (a b : Nat) : Nat := (a + (2 ^ 64 - b % 2 ^ 64)) % 2 ^ 64

/-- Copy `row.begin()+c0 .. row.begin()+c1+1` (`src/core/common.hpp` line 864): both iterators must stay inside the row
and be in order. -/
def copyRange {α : Type} (row : List α) (c0 c1 : Nat) : Res (List α) :=
  if c1 + 1 ≤ row.length ∧ c0 ≤ c1 + 1 then .ok ((row.drop c0).take (c1 + 1 - c0)) else .ub

/-- The row loop of the 2-D `slice` (`src/core/common.hpp` lines 863-865) for `n` rows from row `i`. -/
def sliceRows {α : Type} (x : List (List α)) (c0 c1 : Nat) : Nat → Nat → Res (List (List α))
  | 0, _ => .ok []
  | n + 1, i => do
    let row ← readAt x i
    let r ← copyRange row c0 c1
    let rs ← sliceRows x c0 c1 n (i + 1)
    .ok (r :: rs)

/-- `common::slice` on a 2-D vector (`src/core/common.hpp` lines 838-868). The arguments are 64-bit unsigned numbers;
`end_col - start_col < 0` is never true for them and both size checks compare with `x.size() - 1`. -/
def slice2D {α : Type} (x : List (List α)) (r0 r1 c0 c1 : Nat) : Res (List (List α)) :=
  if r1 < r0 ∨ subU64 x.length 1 < subU64 r1 r0 then .throw .invalidArgument
  else if subU64 x.length 1 < subU64 c1 c0 then .throw .invalidArgument
  else sliceRows x c0 c1 (r1 - r0 + 1) r0

/-- Value of a 64-bit unsigned offset when added to an iterator (`src/core/common.hpp` line 893; converted to the signed difference type). -/
def asSigned (n : Nat) : Int := if n < 2 ^ 63 then n else (n : Int) - 2 ^ 64

/-- `common::slice` on a 1-D vector of `int` (`src/core/common.hpp` lines 878-896): the copied range is
`x.begin() + start_index .. x.end() + end_index + 1`; every intermediate iterator must point into `[begin, end]`. -/
def slice1D {α : Type} (x : List α) (s e : Nat) : Res (List α) :=
  if subU64 x.length 1 < subU64 e s then .throw .invalidArgument
  else
    let n : Int := x.length
    let p1 := asSigned s
    let p2 := n + asSigned e
    if 0 ≤ p1 ∧ p1 ≤ n ∧ 0 ≤ p2 ∧ p2 ≤ n ∧ p2 + 1 ≤ n ∧ p1 ≤ p2 + 1 then
      .ok ((x.drop p1.toNat).take (p2 + 1 - p1).toNat)
    else .ub

/-- `common::argsort` on a `std::vector` (`src/core/common.hpp` lines 801-826): the pairs are sorted, then written by
`indices[i] = …` into a vector that was never resized; `std::stable_sort` has no effect on the number of writes. -/
def argsortVec {α : Type} [LinearOrder α] (x : List α) (reverse : Bool) : Res (List Nat) :=
  let combine := x.zipIdx
  let sorted := if reverse then combine.insertionSort (fun l r => r.1 ≤ l.1)
                else combine.insertionSort (fun l r => l.1 ≤ r.1)
  match sorted with
  | [] => .ok []
  | _ :: _ => .ub

end OpenML.VecOps
