import Verif.Lemmas.Argsort
import Verif.Lemmas.DMat

/-!
# C03: index sorting of matrices
-/

namespace OpenML
open Argsort Spec

variable {α : Type} [LinearOrder α]

/-- C03, axis 1. In a matrix with at least three columns every row of the result is the stable sorting permutation of
that row of the matrix, equal entries keeping the order they have in the *previous* result row (initially ascending). -/
theorem C03_argsort_rows (x : DMat α) (hx : x.WF) (h3 : 3 ≤ x.ncols) (reverse : Bool) :
    ∃ rs, argsort x 1 reverse = .ok rs ∧ rs.length = x.nrows ∧
      ∀ (k : Nat) (line : List α) (r : List Nat), x.rows[k]? = some line → rs[k]? = some r →
        r.Perm (List.range x.ncols) ∧
        ∃ prev, (List.range x.ncols :: rs)[k]? = some prev ∧ IsStableArgsort line reverse prev r := by
  have h := sortLines_spec (reverse := reverse) x.rows hx (List.range x.ncols) (List.Perm.refl _)
  simpa [argsort, linSpaced_ge_three h3, DMat.nrows] using h

/-- C03, axis 0: the same for the columns of a matrix with at least three rows. -/
theorem C03_argsort_columns (x : DMat α) (hx : x.WF) (h3 : 3 ≤ x.nrows) (reverse : Bool) :
    ∃ rs, argsort x 0 reverse = .ok rs ∧ rs.length = x.ncols ∧
      ∀ (k : Nat) (r : List Nat), k < x.ncols → rs[k]? = some r →
        r.Perm (List.range x.nrows) ∧
        ∃ prev, (List.range x.nrows :: rs)[k]? = some prev ∧ IsStableArgsort (x.col k) reverse prev r := by
  obtain ⟨rs, h1, h2, h4⟩ := sortLines_spec (reverse := reverse) x.cols (fun c hc => DMat.length_of_mem_cols hx hc)
    (List.range x.nrows) (List.Perm.refl _)
  refine ⟨rs, by simpa [argsort, linSpaced_ge_three h3] using h1, by rw [h2, DMat.length_cols], ?_⟩
  intro k r hk hr
  exact h4 k _ r (DMat.getElem?_cols x hk) hr

/-- What the specification says about the entries read through a result row: they are in order. -/
theorem C03_argsort_sorts (line : List α) (reverse : Bool) (prev r : List Nat)
    (h : IsStableArgsort line reverse prev r) :
    (r.filterMap (line[·]?)).Pairwise (fun a b => ¬ Ahead reverse b a) := by
  rw [List.pairwise_filterMap]
  rw [List.pairwise_iff_forall_sublist]
  intro i j hij a ha b hb
  obtain ⟨a', b', h1, h2, h3⟩ := h.order i j hij
  rw [h1] at ha; rw [h2] at hb
  cases ha; cases hb
  unfold Ahead at h3 ⊢
  cases reverse
  · rcases h3 with h3 | ⟨rfl, _⟩
    · simpa using (by simpa using h3 : a < b).le
    · simp
  · rcases h3 with h3 | ⟨rfl, _⟩
    · simpa using (by simpa using h3 : b < a).le
    · simp

/-- C03, defect: with exactly two entries per line the index vector is initialised to `0, 2`, so any call that has a line
reads out of bounds. -/
theorem C03_argsort_two_undefined (x : DMat α) (hx : x.WF) (reverse : Bool) :
    (x.ncols = 2 → x.rows ≠ [] → argsort x 1 reverse = .ub) ∧
    (x.nrows = 2 → x.ncols ≠ 0 → argsort x 0 reverse = .ub) := by
  constructor
  · intro h2 hne
    have h := sortLines_two (reverse := reverse) x.rows (fun l hl => by rw [hx l hl, h2]) hne
    simpa [argsort, h2, linSpaced_two] using h
  · intro h2 hne
    have h := sortLines_two (reverse := reverse) x.cols (fun l hl => by rw [DMat.length_of_mem_cols hx hl, h2])
      (by intro hc; have := DMat.length_cols x; rw [hc] at this; simp at this; omega)
    simpa [argsort, h2, linSpaced_two] using h

/-- C03, defect: with one entry per line the reported position is `1`, which does not exist. -/
theorem C03_argsort_one_out_of_range (x : DMat α) (reverse : Bool) :
    (x.ncols = 1 → argsort x 1 reverse = .ok (x.rows.map fun _ => [1])) ∧
    (x.nrows = 1 → argsort x 0 reverse = .ok (x.cols.map fun _ => [1])) := by
  constructor <;> intro h1
  · simpa [argsort, h1, linSpaced_one] using sortLines_one (reverse := reverse) x.rows
  · simpa [argsort, h1, linSpaced_one] using sortLines_one (reverse := reverse) x.cols

/-- C03. Any other axis is rejected. -/
theorem C03_argsort_bad_axis (x : DMat α) (axis : Int) (h1 : axis ≠ 1) (h0 : axis ≠ 0) (reverse : Bool) :
    argsort x axis reverse = .throw .invalidArgument := by simp [argsort, h1, h0]

example : (⟨3, [[3, 1, 2], [5, 5, 5]]⟩ : DMat Nat).WF := by decide
-- the ties of the second row follow the order of the first result row
example : argsort (⟨3, [[3, 1, 2], [5, 5, 5]]⟩ : DMat Nat) 1 false = .ok [[1, 2, 0], [1, 2, 0]] := by decide
example : argsort (⟨3, [[3, 1, 2], [5, 5, 5]]⟩ : DMat Nat) 1 true = .ok [[0, 2, 1], [0, 2, 1]] := by decide
example : argsort (⟨1, [[3], [1], [2]]⟩ : DMat Nat) 0 false = .ok [[1, 2, 0]] := by decide
example : argsort (⟨2, [[3, 1]]⟩ : DMat Nat) 1 false = .ub := by decide
example : argsort (⟨1, [[3]]⟩ : DMat Nat) 0 false = .ok [[1]] := by decide
example : argsort (⟨3, [[3, 1, 2]]⟩ : DMat Nat) 2 false = .throw .invalidArgument := by decide

end OpenML
