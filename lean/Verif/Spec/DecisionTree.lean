import Verif.Model.DecisionTree

/-!
# Specification: paths in a decision tree

A path is a list of turns, `true` for left. Only the type of trees is taken from the model.
-/

namespace OpenML.Spec
open DTree

variable {α ν : Type} [LinearOrder α]

/-- The value stored at the node a path leads to. -/
def valueAt : Tree α ν → List Bool → Option ν
  | .null, _ => none
  | .node v _ _ _, [] => some v
  | .node _ _ l _, true :: p => valueAt l p
  | .node _ _ _ r, false :: p => valueAt r p

/-- The sample satisfies the conditions along the path: feature at most the threshold for left turns, above it for right
turns. -/
def Follows (x : List α) : Tree α ν → List Bool → Prop
  | .null, _ => False
  | .node _ _ _ _, [] => True
  | .node _ none _ _, _ :: _ => False
  | .node _ (some (f, t)) l _, true :: p => (∃ a, x[f]? = some a ∧ a ≤ t) ∧ Follows x l p
  | .node _ (some (f, t)) _ r, false :: p => (∃ a, x[f]? = some a ∧ t < a) ∧ Follows x r p

/-- The node at the path has no child on the left: predictions stop there. -/
def StopsAt : Tree α ν → List Bool → Prop
  | .null, _ => False
  | .node _ _ l _, [] => l = .null
  | .node _ _ l _, true :: p => StopsAt l p
  | .node _ _ _ r, false :: p => StopsAt r p

/-- The node at the path is split. -/
def IsSplit : Tree α ν → List Bool → Prop
  | .null, _ => False
  | .node _ s _ _, [] => s ≠ none
  | .node _ _ l _, true :: p => IsSplit l p
  | .node _ _ _ r, false :: p => IsSplit r p

open Classical in
/-- The targets of the training samples that satisfy the conditions along the path, in training order. -/
noncomputable def targetsAt (T : Tree α ν) (X : List (List α)) (y : List α) (p : List Bool) : List α :=
  ((X.zip y).filter fun e => Follows e.1 T p).map Prod.snd

open Classical in
/-- The feature vectors of those samples, in training order. -/
noncomputable def rowsAt (T : Tree α ν) (X : List (List α)) (y : List α) (p : List Bool) : List (List α) :=
  ((X.zip y).filter fun e => Follows e.1 T p).map Prod.fst

/-- The split stored at the node a path leads to, if there is a node. -/
def splitAt : Tree α ν → List Bool → Option (Option (Nat × α))
  | .null, _ => none
  | .node _ s _ _, [] => some s
  | .node _ _ l _, true :: p => splitAt l p
  | .node _ _ _ r, false :: p => splitAt r p

/-- A split a tree may use: a feature of the data and the average of two neighbours among its values in increasing order. -/
def IsCandidate {α : Type} [Field α] [LinearOrder α] (X : DMat α) (f : Nat) (t : α) : Prop :=
  f < X.ncols ∧ ∃ i a b, ((X.col f).insertionSort (· ≤ ·))[i]? = some a ∧
    ((X.col f).insertionSort (· ≤ ·))[i + 1]? = some b ∧ t = (a + b) / 2

/-- The targets of the samples whose feature `f` is at most `t`. -/
def targetsLE (X : DMat α) (y : List α) (f : Nat) (t : α) : List α :=
  ((X.rows.zip y).filter fun e => e.1[f]?.any fun a => decide (a ≤ t)).map Prod.snd

/-- The targets of the samples whose feature `f` is above `t`. -/
def targetsGT (X : DMat α) (y : List α) (f : Nat) (t : α) : List α :=
  ((X.rows.zip y).filter fun e => e.1[f]?.any fun a => decide (t < a)).map Prod.snd

/-- A sample with every feature `f` replaced by `a f` times its value plus `b f`. -/
def rescaleRow {α : Type} [Field α] (a b : Nat → α) (x : List α) : List α := x.mapIdx fun f v => a f * v + b f

end OpenML.Spec
