import Mathlib.Algebra.Order.Field.Basic
import Mathlib.Algebra.BigOperators.Group.List.Basic

/-!
# Specifications for the convergence of the perceptron
-/

namespace OpenML.Spec

/-- Inner product of a sample and a weight vector. -/
def pairing {α : Type} [Field α] (x u : List α) : α := (List.zipWith (· * ·) x u).sum

/-- The weights `w` classify each sample strictly correctly: the score has the sign of the label. -/
def Classifies {α : Type} [Field α] [LinearOrder α] (data : List (List α × α)) (w : List α) : Prop :=
  ∀ e ∈ data, 0 < e.2 * pairing e.1 w

/-- The vector `u` separates the samples with margin `margin`. -/
def SeparatesBy {α : Type} [Field α] [LinearOrder α] (data : List (List α × α)) (u : List α) (margin : α) : Prop :=
  ∀ e ∈ data, margin ≤ e.2 * pairing e.1 u

/-- Bound on the sum of the learning rates of the epochs that correct anything: `len` and `start` bound the lengths of the
separating vector and of the initial weights, `radius` the lengths of the samples scaled by their labels, `cap` the rates. -/
def correctionBudget {α : Type} [Field α] (len start radius margin cap : α) : α :=
  2 * len * start / margin + cap * len ^ 2 * radius ^ 2 / margin ^ 2

/-- Absolute values of feature `j`, scaled by the labels, summed over the samples. -/
def scaledMass {α : Type} [Field α] [LinearOrder α] (data : List (List α × α)) (j : Nat) : α :=
  (data.map fun e => |e.2 * e.1.getD j 0|).sum

end OpenML.Spec
