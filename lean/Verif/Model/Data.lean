import Verif.Model.Eigen
import Mathlib.Data.Rat.Floor

/-!
# Models of `src/core/data/split.hpp`, `src/core/data/load.hpp` and `src/core/math/shuffle.hpp`

The permutation drawn by `std::shuffle` is a parameter. File parsing (`std::getline`, `>>`) is not modelled: the input of
`loadtxt` is the parsed table.
-/

namespace OpenML.Data

/-- Product of an Eigen permutation matrix with the rows of a matrix (`src/core/math/shuffle.hpp` lines 44, 63-64): row `i`
of the operand becomes row `indices[i]` of the result. `acc` is the freshly allocated result. -/
def scatter {β : Type} : List Nat → List β → List β → List β
  | i :: is, x :: xs, acc => scatter is xs (acc.set i x)
  | _, _, acc => acc

/-- `index_permut * v`: sizes must match (Eigen assertion), otherwise undefined (`src/core/math/shuffle.hpp` lines
63-64). -/
def permuteRows {β : Type} (indices : List Nat) (v : List β) : Res (List β) :=
  if indices.length = v.length then .ok (scatter indices v v) else .ub

/-- Conversion of a floating point number to `int` (`src/core/data/split.hpp` line 36): truncation towards zero. -/
def truncInt (q : ℚ) : Int := if 0 ≤ q then ⌊q⌋ else ⌈q⌉

/-- `v.topRows(n)` with its size assertion (`src/core/data/split.hpp` lines 39, 41). -/
def topRows {β : Type} (v : List β) (n : Int) : Res (List β) :=
  if 0 ≤ n ∧ n ≤ v.length then .ok (v.take n.toNat) else .ub

/-- `v.bottomRows(n)` with its size assertion (`src/core/data/split.hpp` lines 40, 42). -/
def bottomRows {β : Type} (v : List β) (n : Int) : Res (List β) :=
  if 0 ≤ n ∧ n ≤ v.length then .ok (v.drop (v.length - n.toNat)) else .ub

/-- `train_test_split(X, y, train_size, shuffle)` (`src/core/data/split.hpp` lines 22-45) on the list of rows; `shuffle` is
`none` for `false` and the drawn permutation for `true`. The product `num_samples * train_size` is exact here. -/
def trainTestSplit {ρ β : Type} (X : List ρ) (y : List β) (trainSize : ℚ) (shuffle : Option (List Nat)) :
    Res (List ρ × List ρ × List β × List β) := do
  let newX ← match shuffle with | none => .ok X | some p => permuteRows p X
  let newY ← match shuffle with | none => .ok y | some p => permuteRows p y
  let numTrain := truncInt ((X.length : ℚ) * trainSize)
  let numTest := (X.length : Int) - numTrain
  let xTrain ← topRows newX numTrain
  let xTest ← bottomRows newX numTest
  let yTrain ← topRows newY numTrain
  let yTest ← bottomRows newY numTest
  .ok (xTrain, xTest, yTrain, yTest)

/-- The loop of `divide_on_feature` (`src/core/data/split.hpp` lines 71-78) from row `i`. -/
def divideFrom {α : Type} [LinearOrder α] (feature : Nat) (threshold : α) : List (List α) → Nat →
    Res (List Nat × List Nat)
  | [], _ => .ok ([], [])
  | row :: rows, i => do
    let v ← readAt row feature
    let r ← divideFrom feature threshold rows (i + 1)
    if v ≤ threshold then .ok (i :: r.1, r.2) else .ok (r.1, i :: r.2)

/-- `divide_on_feature(X, feature_index, threshold)` (`src/core/data/split.hpp` lines 62-84). -/
def divideOnFeature {α : Type} [LinearOrder α] (X : DMat α) (feature : Nat) (threshold : α) : Res (List Nat × List Nat) :=
  divideFrom feature threshold X.rows 0

/-- Filling the Eigen matrix from the table (`src/core/data/load.hpp` lines 39-42): `n_cols` numbers are read from each row
whatever its length. -/
def mapRows {α : Type} (ncols : Nat) : List (List α) → Res (List (List α))
  | [] => .ok []
  | r :: rs => do
    let row ← if ncols ≤ r.length then .ok (r.take ncols) else .ub
    let rest ← mapRows ncols rs
    .ok (row :: rest)

/-- `loadtxt(fp, X, y)` for Eigen types (`src/core/data/load.hpp` lines 17-46); `none` means that the file cannot be opened.
An empty table reads `stdmat[0]` out of bounds, an empty first row asks for `leftCols(-1)`. -/
def loadtxtMat {α : Type} (file : Option (List (List α))) : Res (DMat α × List α) :=
  match file with
  | none => .throw .runtimeError
  | some [] => .ub
  | some ([] :: _) => .ub
  | some ((a :: r) :: rest) => do
    let mat ← mapRows (a :: r).length ((a :: r) :: rest)
    .ok ({ ncols := r.length, rows := mat.map (·.take r.length) }, mat.filterMap (·[r.length]?))

/-- `loadtxt(fp, X)` for a vector of vectors (`src/core/data/load.hpp` lines 49-66): rows are appended to `X`. -/
def loadtxtRows {α : Type} (file : Option (List (List α))) (X : List (List α)) : Res (List (List α)) :=
  match file with
  | none => .throw .runtimeError
  | some t => .ok (X ++ t)

/-- The inner loop `X[i][j] = stdmat[i][j]` for `j < m` (`src/core/data/load.hpp` lines 97-99): both rows must have at least
`m` entries. -/
def overwriteRow {α : Type} (m : Nat) (dst src : List α) : Res (List α) :=
  if m ≤ dst.length ∧ m ≤ src.length then .ok (src.take m ++ dst.drop m) else .ub

/-- The loop over rows (`src/core/data/load.hpp` lines 96-101): `back()` of an empty row is undefined. -/
def fillRows {α : Type} (m : Nat) : List (List α) → List (List α) → List α → Res (List (List α) × List α)
  | d :: ds, s :: ss, y => do
    let d' ← overwriteRow m d s
    match s.getLast? with
    | none => .ub
    | some v => do
      let r ← fillRows m ds ss (y ++ [v])
      .ok (d' :: r.1, r.2)
  | _, _, y => .ok ([], y)

/-- `loadtxt(fp, X, y)` for vectors (`src/core/data/load.hpp` lines 73-102). `X.resize(nrows, …)` keeps rows the caller
passed; `fill` is the value-initialised number. For an empty first row `ncols - 1` wraps around and the allocation throws
`std::length_error`. -/
def loadtxtVec {α : Type} (fill : α) (file : Option (List (List α))) (X : List (List α)) (y : List α) :
    Res (List (List α) × List α) :=
  match file with
  | none => .throw .runtimeError
  | some [] => .ub
  | some ([] :: _) => .throw .lengthError
  | some ((a :: r) :: rest) =>
    let n := rest.length + 1
    fillRows r.length (X.take n ++ List.replicate (n - X.length) (List.replicate r.length fill)) ((a :: r) :: rest) y

/-- A program that loads files one after the other into the same rows and catches the exceptions; a file that cannot be opened is
noticed before the rows are touched (`src/core/data/load.hpp` lines 52-56). -/
def loadRowsEach {α : Type} : List (Option (List (List α))) → List (List α) → Res (List (List α))
  | [], X => .ok X
  | f :: fs, X =>
    match loadtxtRows f X with
    | .ok X' => loadRowsEach fs X'
    | .throw _ => loadRowsEach fs X
    | .ub => .ub
    | .diverge => .diverge

/-- A program that loads labelled files one after the other into the same containers (`src/core/data/load.hpp` lines 73-102). An
exception ends it. -/
def loadVecEach {α : Type} (fill : α) : List (Option (List (List α))) → List (List α) → List α → Res (List (List α) × List α)
  | [], X, y => .ok (X, y)
  | f :: fs, X, y => do
    let r ← loadtxtVec fill f X y
    loadVecEach fill fs r.1 r.2

end OpenML.Data

namespace OpenML.Data

/-- Product of the columns of a matrix with an Eigen permutation matrix (`src/core/math/shuffle.hpp` line 40): column `j` of
the result is column `indices[j]` of the operand. -/
def gatherCols {α : Type} (indices : List Nat) (X : DMat α) : Res (DMat α) :=
  if indices.length = X.ncols then
    .ok { ncols := X.ncols, rows := X.rows.map fun r => indices.filterMap (r[·]?) }
  else .ub

/-- `shuffle_data(X, shuffled_X, axis)` (`src/core/math/shuffle.hpp` lines 16-46) with the permutations drawn for columns
and rows; `axis = 1` in the condition is an assignment, so each axis other than 0 permutes rows. -/
def shuffleMat {α : Type} (X : DMat α) (axis : Int) (colPerm rowPerm : List Nat) : Res (DMat α) :=
  if axis = 0 then gatherCols colPerm X
  else do
    let rows ← permuteRows rowPerm X.rows
    .ok { X with rows := rows }

end OpenML.Data
