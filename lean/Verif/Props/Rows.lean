import Verif.Lemmas.Rows

/-!
# C02: `common::remove_duplicate_rows`
-/

namespace OpenML
open Rows Spec

variable {α : Type} [DecidableEq α]

/-- C02. On a table whose first row is not empty the search terminates, never leaves the bounds of its arrays, and
returns each distinct row once, in order of first occurrence. -/
theorem C02_remove_duplicate_rows (X : List (List α)) (h1 : X ≠ []) (h2 : X.head? ≠ some []) :
    removeDuplicateRows X = .ok (firstOccurrences X) :=
  removeDuplicateRowsFuel_spec X _ (Nat.le_refl _) h1 h2

/-- C02, termination: giving the loop more fuel never changes the outcome. -/
theorem C02_remove_duplicate_rows_terminates (X : List (List α)) (fuel : Nat)
    (hf : (X.length + 1) * (X.length + 1) ≤ fuel) (h1 : X ≠ []) (h2 : X.head? ≠ some []) :
    removeDuplicateRowsFuel fuel X = removeDuplicateRows X := by
  rw [removeDuplicateRowsFuel_spec X fuel hf h1 h2, C02_remove_duplicate_rows X h1 h2]

/-- C02, error branch: the call throws exactly on an empty table or an empty first row. -/
theorem C02_remove_duplicate_rows_throws_iff (X : List (List α)) (e : Exn) :
    removeDuplicateRows X = .throw e ↔ e = .invalidArgument ∧ (X = [] ∨ X.head? = some []) := by
  match X with
  | [] => simp [removeDuplicateRows, removeDuplicateRowsFuel, eq_comm]
  | [] :: _ => simp [removeDuplicateRows, removeDuplicateRowsFuel, eq_comm]
  | (a :: r) :: Y => rw [C02_remove_duplicate_rows ((a :: r) :: Y) (by simp) (by simp)]; simp

/-- C02, what "first occurrences" means: the result is a subsequence of the input without repetition that contains
every row of the input. -/
theorem C02_first_occurrences_meaning (X : List (List α)) :
    (firstOccurrences X).Sublist X ∧ (firstOccurrences X).Nodup ∧ ∀ r, r ∈ firstOccurrences X ↔ r ∈ X :=
  firstOccurrences_meaning X

example : removeDuplicateRows [[1, 2], [3], [1, 2], [4], [3], [1, 2]] = .ok [[1, 2], [3], [4]] := by decide
example : ([[1, 2], [3], [1, 2]] : List (List Nat)) ≠ [] ∧ ([[1, 2], [3], [1, 2]] : List (List Nat)).head? ≠ some [] := by
  decide
example : removeDuplicateRows ([[], [1]] : List (List Nat)) = .throw .invalidArgument := by decide

end OpenML
