import Verif.Model.Res
import Mathlib.Data.List.Sort

/-!
# Models of the Eigen and standard-library primitives used by several files

External semantics (Eigen 3.4, C++17 standard library), taken from their documentation; part of the trusted base.
-/

namespace OpenML

/-- A dynamic Eigen matrix: number of columns and the list of its rows (`Eigen::Matrix<T, Dynamic, Dynamic>`, used
throughout `/repo/src`, for instance `src/core/tree/kd_tree.hpp` line 12). The column count is kept so that a matrix without rows still has a width. -/
structure DMat (α : Type) where
  ncols : Nat
  rows : List (List α)
deriving DecidableEq, Repr

namespace DMat

/-- Number of rows, `x.rows()` (for instance `src/core/common.hpp` line 120). -/
def nrows {α : Type} (x : DMat α) : Nat := x.rows.length

/-- All rows have the declared width: what every constructed Eigen matrix satisfies (for instance
`src/core/common.hpp` lines 120-123). -/
def WF {α : Type} (x : DMat α) : Prop := ∀ r ∈ x.rows, r.length = x.ncols

/-- `WF` can be decided; used in examples only (no counterpart in `src/core/common.hpp` lines 120-123). -/
instance {α : Type} (x : DMat α) : Decidable x.WF := inferInstanceAs (Decidable (∀ r ∈ x.rows, r.length = x.ncols))

/-- Column `j` of a matrix, `x.col(j)` for `j < x.cols()` (for instance `src/core/common.hpp` lines 131, 176). -/
def col {α : Type} (x : DMat α) (j : Nat) : List α := x.rows.filterMap (·[j]?)

/-- All columns from left to right (for instance `src/core/common.hpp` lines 128-133). -/
def cols {α : Type} (x : DMat α) : List (List α) := (List.range x.ncols).map x.col

end DMat

/-- `Eigen::Vector<Index,…>::LinSpaced(n, low, high)` for an integer scalar type and `low ≤ high`. Eigen evaluates
`low + i * multiplier` with `multiplier = (high - low) / max(n-1, 1)` (truncated), switches to `low + i / divisor` with
`divisor = (n + high - low) / (high - low + 1)` if there are fewer values than steps, and for `n = 1` uses `high` as the
start. Called at `src/core/common.hpp` lines 222, 226 and `src/methods/naive_bayes/gaussian_naive_bayes.hpp` line 82. -/
def linSpaced (n low high : Nat) : List Nat :=
  let lo := if n = 1 then high else low
  let mult := (high - lo) / (if n ≤ 1 then 1 else n - 1)
  let useDiv := decide (1 < n) && decide (high - lo + 1 < n)
  let dvs := (n + (high - lo)) / (high - lo + 1)
  (List.range n).map fun i => if useDiv then lo + i / dvs else lo + i * mult

/-- Loop of Eigen's `maxCoeff(&idx)` / `minCoeff(&idx)` visitor (`src/core/common.hpp` lines 123, 131, 142, 168, 176,
186) behind the first coefficient: `best` at `bi` so far, next position `i`; only a strictly better coefficient replaces the current one. -/
def visitFrom {α : Type} (better : α → α → Bool) : List α → α → Nat → Nat → Nat
  | [], _, bi, _ => bi
  | a :: l, best, bi, i => if better a best then visitFrom better l a i (i + 1) else visitFrom better l best bi (i + 1)

/-- Position reported by `maxCoeff(&idx)` on a vector expression (`src/core/common.hpp` lines 123, 131, 142); an empty expression violates an `eigen_assert`. -/
def maxCoeffIdx {α : Type} [LinearOrder α] : List α → Res Nat
  | [] => .ub
  | a :: l => .ok (visitFrom (fun x b => decide (b < x)) l a 0 1)

/-- Position reported by `minCoeff(&idx)` on a vector expression (`src/core/common.hpp` lines 168, 176, 186); an empty expression violates an `eigen_assert`. -/
def minCoeffIdx {α : Type} [LinearOrder α] : List α → Res Nat
  | [] => .ub
  | a :: l => .ok (visitFrom (fun x b => decide (x < b)) l a 0 1)

/-- Run a partial computation for every element in order (a `for` loop filling a result array, for instance
`src/core/common.hpp` lines 122-124). -/
def mapRes {α β : Type} (f : α → Res β) : List α → Res (List β)
  | [] => .ok []
  | a :: l => do
    let b ← f a
    let bs ← mapRes f l
    .ok (b :: bs)

theorem mapRes_ok {α β : Type} {f : α → Res β} {g : α → β} {l : List α} (h : ∀ a ∈ l, f a = .ok (g a)) :
    mapRes f l = .ok (l.map g) := by
  induction l with
  | nil => rfl
  | cons a l ih =>
    simp only [mapRes, h a (by simp), Res.bind_ok, ih (fun b hb => h b (by simp [hb])), List.map_cons]

theorem mapRes_eq_ok {α β : Type} {f : α → Res β} {l : List α} {bs : List β} (h : mapRes f l = .ok bs) :
    bs.length = l.length ∧ ∀ (k : Nat) (a : α), l[k]? = some a → ∃ b, bs[k]? = some b ∧ f a = .ok b := by
  induction l generalizing bs with
  | nil => cases h; simp
  | cons a l ih =>
    simp only [mapRes, Res.bind_eq_ok] at h
    obtain ⟨b, hb, cs, hcs, h⟩ := h
    cases h
    obtain ⟨h1, h2⟩ := ih hcs
    refine ⟨by simpa using h1, ?_⟩
    intro k c hk
    cases k with
    | zero => simp at hk; subst hk; exact ⟨b, by simp, hb⟩
    | succ k => simpa using h2 k c (by simpa using hk)

end OpenML
