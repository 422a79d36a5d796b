import Verif.Model.SGD

/-!
# Specification: losses with increasing slopes
-/

namespace OpenML.Spec

variable {α : Type} [Field α] [LinearOrder α]

/-- The inner product of the differences `u - u'` and `v - v'`. -/
def diffProduct (u u' v v' : List α) : α :=
  (List.zipWith (· * ·) (List.zipWith (· - ·) u u') (List.zipWith (· - ·) v v')).sum

/-- The gradient is strictly monotone: along each line the slope of the loss strictly increases. -/
def StrictlyMonotone (loss : SGD.LossFn α (List α)) (X : DMat α) (y : List α) (n : Nat) : Prop :=
  ∀ u v gu gv : List α, u.length = n → v.length = n → u ≠ v → loss.gradient X y u = .ok gu → loss.gradient X y v = .ok gv →
    0 < diffProduct u v gu gv

/-- The loss is linear: the inner product with `c` plus a constant. -/
def IsLinear (loss : SGD.LossFn α (List α)) (X : DMat α) (y : List α) (c : List α) (b : α) : Prop :=
  ∀ w : List α, w.length = c.length → loss.evaluate X y w = .ok ((List.zipWith (· * ·) c w).sum + b) ∧ loss.gradient X y w = .ok c

end OpenML.Spec
