import Verif.Model.Eigen
import Mathlib.Order.Defs.LinearOrder
import Mathlib.LinearAlgebra.Matrix.Defs
import Mathlib.Data.Fin.Tuple.Basic
import Mathlib.Data.Real.Basic

/-!
# Vocabulary of C163: a feature appended to the data
-/

namespace OpenML.Spec

/-- Every sample `x` gets a further feature, `g x`, at the end. -/
def withFeature {α : Type} (g : List α → α) (X : DMat α) : DMat α := ⟨X.ncols + 1, X.rows.map fun x => x ++ [g x]⟩

/-- On the samples `rows` the number `g x` never falls while feature `f` rises; in particular it is the same for samples with
the same feature `f`. -/
def RisesWith {α : Type} [LE α] (rows : List (List α)) (f : Nat) (g : List α → α) : Prop :=
  ∀ x ∈ rows, ∀ z ∈ rows, ∀ a b, x[f]? = some a → z[f]? = some b → a ≤ b → g x ≤ g z

/-- Like `RisesWith`, and `g x` is larger where feature `f` is larger. -/
def StrictlyRisesWith {α : Type} [LE α] [LT α] (rows : List (List α)) (f : Nat) (g : List α → α) : Prop :=
  RisesWith rows f g ∧ ∀ x ∈ rows, ∀ z ∈ rows, ∀ a b, x[f]? = some a → z[f]? = some b → a < b → g x < g z

/-- A matrix with a column appended. -/
def addColumn {n d : Nat} (X : Matrix (Fin n) (Fin d) ℝ) (c : Fin n → ℝ) : Matrix (Fin n) (Fin (d + 1)) ℝ :=
  Matrix.of fun i => Fin.snoc (α := fun _ => ℝ) (X i) (c i)

end OpenML.Spec
