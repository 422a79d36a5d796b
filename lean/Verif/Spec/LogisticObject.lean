import Verif.Model.LogisticObject

/-! What it means that training does not depend on uninitialised memory. -/

namespace OpenML.Spec

open OpenML.LogisticObject

/-- Training an object from `build` gives the same whatever was in the memory before. -/
def Determined (build : Members → Members) : Prop :=
  ∀ mem mem' perms junk fuel X y init, fit (build mem) perms junk fuel X y init = fit (build mem') perms junk fuel X y init

/-- For some memories, valid data and initial weights, training gives different outcomes whatever is drawn. -/
def Undetermined (build : Members → Members) : Prop :=
  ∃ (mem mem' : Members) (X : DMat ℝ) (y init : List ℝ), X.WF ∧ 0 < X.nrows ∧ y.length = X.nrows ∧ (∀ a ∈ y, a = 0 ∨ a = 1) ∧
    init.length = X.ncols + 1 ∧
    ∀ (perms : Nat → List Nat) (junk : Nat → ℝ) (fuel : Nat), (∀ i, (perms i).Perm (List.range X.nrows)) →
      fit (build mem) perms junk fuel X y init ≠ fit (build mem') perms junk fuel X y init

end OpenML.Spec
