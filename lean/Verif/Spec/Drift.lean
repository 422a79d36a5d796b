import Verif.Model.SGD

/-!
# Specifications for how far training moves weights
-/

namespace OpenML.Spec

open SGD

/-- The update policies, with the factor by which they enlarge a step. -/
def Policy {α : Type} [Field α] [LinearOrder α] (update : List α → List α → α → Res (List α)) (c : α) : Prop :=
  (update = vanillaUpdate ∧ c = 1) ∨ (∃ mu, update = momentumUpdate mu ∧ c = 1) ∨ ∃ mu, update = nesterovUpdate mu ∧ c = |1 + mu|

/-- `v` has as many entries as `w`, and no entry is further from that of `w` than `r`. -/
def Within {α : Type} [Field α] [LinearOrder α] (r : α) (w v : List α) : Prop :=
  v.length = w.length ∧ ∀ j, |v.getD j 0 - w.getD j 0| ≤ r

/-- `v` has as many entries as `w`, and no entry exceeds that of `w` in magnitude by more than `r`. -/
def Grown {α : Type} [Field α] [LinearOrder α] (r : α) (w v : List α) : Prop :=
  v.length = w.length ∧ ∀ j, |v.getD j 0| ≤ |w.getD j 0| + r

/-- `Within` for matrices of the same shape. -/
def WithinMat {α : Type} [Field α] [LinearOrder α] (r : α) (w v : DMat α) : Prop :=
  v.ncols = w.ncols ∧ v.rows.length = w.rows.length ∧ ∀ i, Within r (w.rows.getD i []) (v.rows.getD i [])

end OpenML.Spec
