import Verif.Spec.Extreme
import Mathlib.Algebra.Order.Field.Basic

/-!
# Specification: segments, boxes and regions with the same answer
-/

namespace OpenML.Spec

variable {α : Type} [Field α] [LinearOrder α]

/-- The point of the segment from `a` to `b` that divides it in the ratio `t : 1 - t`. -/
def between (t : α) (a b : List α) : List α := List.zipWith (fun u v => (1 - t) * u + t * v) a b

/-- `z` lies on the segment from `a` to `b`. -/
def OnSegment (a b z : List α) : Prop := ∃ t, 0 ≤ t ∧ t ≤ 1 ∧ z = between t a b

/-- Whenever two samples get the same answer, all samples on the segment between them get it too. -/
def ConvexAnswers {β : Type} (rows : List (List α)) (answers : List β) : Prop :=
  ∀ (i j k : Nat) (a b z : List α) (c : β), rows[i]? = some a → rows[j]? = some b → rows[k]? = some z → OnSegment a b z →
    answers[i]? = some c → answers[j]? = some c → answers[k]? = some c

/-- A box: for each coordinate possibly a lower bound, which is excluded, and an upper bound, which is included. -/
structure Box (α : Type) where
  lo : Nat → Option α
  hi : Nat → Option α

/-- The point lies in the box. -/
def Box.Contains {α : Type} [LinearOrder α] (B : Box α) (x : List α) : Prop :=
  ∀ j a, x[j]? = some a → (∀ l, B.lo j = some l → l < a) ∧ ∀ u, B.hi j = some u → a ≤ u

/-- The boxes divide the points with `d` coordinates among them: each point lies in exactly one. -/
def Divides {α β : Type} [LinearOrder α] (d : Nat) (L : List (Box α × β)) : Prop :=
  ∀ x : List α, x.length = d → ∃! i : Fin L.length, (L.get i).1.Contains x

end OpenML.Spec
