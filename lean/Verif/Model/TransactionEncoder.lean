import Verif.Model.HashTree

/-!
# Model of `TransactionEncoder` (`src/core/preprocessing/transaction_encoder.hpp`)

Items are natural numbers (`std::size_t`, the type it is used with in `src/methods/rule_model/apriori.hpp` line 77).
-/

namespace OpenML.TransactionEncoder
open HashTree

/-- `set.insert(v)` on a `std::set`, kept as increasing list (`src/core/preprocessing/transaction_encoder.hpp` lines 25,
43). -/
def setInsert (v : Nat) : List Nat → List Nat
  | [] => [v]
  | a :: l => if v < a then v :: a :: l else if v = a then a :: l else a :: setInsert v l

/-- The set of all elements of a list (`src/core/preprocessing/transaction_encoder.hpp` lines 41-45). -/
def toSet (l : List Nat) : List Nat := l.foldl (fun s v => setInsert v s) []

/-- The set of all items (`src/core/preprocessing/transaction_encoder.hpp` lines 23-27). -/
def colsSet (X : List (List Nat)) : List Nat := X.foldl (fun s row => row.foldl (fun s v => setInsert v s) s) []

/-- `cols_map`: items numbered in set order (`src/core/preprocessing/transaction_encoder.hpp` lines 28-32). -/
def colsMapFrom : List Nat → Nat → List (Nat × Nat)
  | [], _ => []
  | v :: l, idx => (v, idx) :: colsMapFrom l (idx + 1)

/-- The triplets `(row, column, value)` of one transaction (`src/core/preprocessing/transaction_encoder.hpp` lines
46-52). -/
def rowTriplets (colsMap : List (Nat × Nat)) (idx : Nat) : List Nat → List ((Nat × Nat) × Nat)
  | [] => []
  | x :: row =>
    match find x colsMap with
    | some j => ((idx, j), x) :: rowTriplets colsMap idx row
    | none => rowTriplets colsMap idx row

/-- All triplets (`src/core/preprocessing/transaction_encoder.hpp` lines 34-54). -/
def tripletsFrom (colsMap : List (Nat × Nat)) : List (List Nat) → Nat → List ((Nat × Nat) × Nat)
  | [], _ => []
  | row :: X, idx => rowTriplets colsMap idx (toSet row) ++ tripletsFrom colsMap X (idx + 1)

/-- Row-major order of matrix positions, the storage order of `src/core/preprocessing/transaction_encoder.hpp` line 65. -/
def posLt (p q : Nat × Nat) : Bool := decide (p.1 < q.1 ∨ (p.1 = q.1 ∧ p.2 < q.2))

/-- One step of `setFromTriplets` (`src/core/preprocessing/transaction_encoder.hpp` line 65): values at equal positions are
added, also zeros are stored. -/
def addTriplet (m : List ((Nat × Nat) × Nat)) (t : (Nat × Nat) × Nat) : List ((Nat × Nat) × Nat) :=
  match find t.1 m with
  | some v => replace t.1 (v + t.2) m
  | none => insertNew posLt t.1 t.2 m

/-- A row-major Eigen sparse matrix (`src/core/preprocessing/transaction_encoder.hpp` line 60): shape and stored entries in storage order. -/
structure Sparse where
  nrows : Nat
  ncols : Nat
  stored : List ((Nat × Nat) × Nat)
deriving DecidableEq

/-- Value at a position, zero where nothing is stored (`coeff` of the result of
`src/core/preprocessing/transaction_encoder.hpp` line 67). -/
def Sparse.coeff (m : Sparse) (i j : Nat) : Nat := (find (i, j) m.stored).getD 0

/-- `fit_transform(X)` (`src/core/preprocessing/transaction_encoder.hpp` lines 18-68). -/
def fitTransform (X : List (List Nat)) : Sparse :=
  let cs := colsSet X
  { nrows := X.length
    ncols := cs.length
    stored := (tripletsFrom (colsMapFrom cs 0) X 0).foldl addTriplet [] }

end OpenML.TransactionEncoder
