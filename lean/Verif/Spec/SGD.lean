import Verif.Model.SGD
import Mathlib.Algebra.BigOperators.Group.Finset.Basic
import Mathlib.Algebra.Order.Group.Unbundled.Abs

/-!
# Specifications for the mini-batch optimizers and coordinate descent
-/

namespace OpenML.Spec

open SGD
open scoped BigOperators

/-- Mini-batch number `j` of size `b`. -/
def batch {β : Type} (b j : Nat) (l : List β) : List β := (l.drop (j * b)).take b

/-- One pass over `k` consecutive mini-batches: `t j` is the internal state before batch `j`, `l j` the loss on batch `j` with
the weights after that batch. -/
def IsPass {α W S : Type} [Field α] (loss : LossFn α W) (weights : S → W) (step : Step α S) (b k : Nat) (X : DMat α) (y : List α)
    (lr : α) (s s' : S) (total : α) : Prop :=
  ∃ (t : Nat → S) (l : Nat → α), t 0 = s ∧ t k = s' ∧ total = ∑ j ∈ Finset.range k, l j ∧
    ∀ j < k, (j + 1) * b ≤ X.rows.length ∧ (j + 1) * b ≤ y.length ∧
      step (t j) ⟨X.ncols, batch b j X.rows⟩ (batch b j y) lr j = .ok (t (j + 1)) ∧
      loss.evaluate ⟨X.ncols, batch b j X.rows⟩ (batch b j y) (weights (t (j + 1))) = .ok (l j)

/-- `n` epochs: `D i`, `S i` are data order and internal state before epoch `i`, `L i` is the loss summed up in epoch `i`. -/
def IsRun {α W S : Type} [Field α] (loss : LossFn α W) (weights : S → W) (step : Step α S) (p : Params α) (k : Nat) (X : DMat α)
    (y : List α) (s : S) (n : Nat) (D : Nat → DMat α × List α) (st : Nat → S) (L : Nat → α) : Prop :=
  D 0 = (X, y) ∧ st 0 = s ∧ ∀ i < n, shuffleXY p.shuffle i (D i).1 (D i).2 = .ok (D (i + 1)) ∧
    ∃ lr, p.decay i = .ok lr ∧ IsPass loss weights step p.batchSize k (D (i + 1)).1 (D (i + 1)).2 lr (st i) (st (i + 1)) (L i)

/-- Epoch `i` does not improve on some earlier epoch by at least the slack. -/
def NonImproving {α : Type} [Field α] [LinearOrder α] (slack : α) (L : Nat → α) (i : Nat) : Prop := ∃ j < i, L j - slack < L i

/-- The last `m` epochs up to and including epoch `i` are non-improving. -/
def Stalled {α : Type} [Field α] [LinearOrder α] (slack : α) (L : Nat → α) (m i : Nat) : Prop :=
  ∀ j ≤ i, i < j + m → NonImproving slack L j

/-- Epoch `i` is the first one at which the last `m` epochs are non-improving. -/
def FirstStall {α : Type} [Field α] [LinearOrder α] (slack : α) (L : Nat → α) (m i : Nat) : Prop :=
  Stalled slack L m i ∧ ∀ j < i, ¬ Stalled slack L m j

/-- States reached from `s₀` by any sequence of steps on any batches. -/
inductive Reach {α S : Type} (step : Step α S) (s₀ : S) : S → Prop
  | start : Reach step s₀ s₀
  | step {s s' : S} (Xb : DMat α) (yb : List α) (lr : α) (j : Nat) : Reach step s₀ s → step s Xb yb lr j = .ok s' →
      Reach step s₀ s'

/-- Soft thresholding: move `w` toward zero by `u`, stopping at zero. -/
def softThreshold {α : Type} [Field α] [LinearOrder α] (u w : α) : α :=
  if 0 ≤ w then max 0 (w - u) else -max 0 (-w - u)

/-- Predicted change of the penalised objective if a coordinate with value `x` and partial derivative `g` is moved by `e`. -/
def predictedChange {α : Type} [Field α] [LinearOrder α] (beta lambda x g e : α) : α :=
  e * g + beta / 2 * e ^ 2 + lambda * |x + e| - lambda * |x|

/-- Sum of absolute values. -/
def l1Norm {α : Type} [Field α] [LinearOrder α] (w : List α) : α := (w.map fun a => |a|).sum

end OpenML.Spec
