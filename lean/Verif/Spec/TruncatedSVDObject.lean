import Verif.Model.TruncatedSVDObject
import Verif.Spec.PCA

/-!
# Specification: the call of `fit` whose results a `TruncatedSVD` object holds
-/

namespace OpenML.Spec

open TruncatedSVDObject

variable {k p d : Nat}

/-- The statement fits, and a new object sees that it returns. -/
def FitReturns (dec : TruncatedSVD.Decompositions) (s : Settings) (c : Call k p d) : Prop :=
  (∃ M X Q, c = .fit M X Q) ∧ program dec s [c] = .ok [.done]

/-- The last statement that fits and returns. -/
def LastReturning (dec : TruncatedSVD.Decompositions) (s : Settings) (cs : List (Call k p d)) (c : Call k p d) : Prop :=
  ∃ before after, cs = before ++ c :: after ∧ FitReturns dec s c ∧ ∀ c' ∈ after, ¬ FitReturns dec s c'

/-- The same statement, except perhaps for the random numbers of `fit`. -/
inductive SameButDraws : Call k p d → Call k p d → Prop
  | fit (M : Nat) (X : Matrix (Fin M) (Fin d) ℝ) (Q Q' : Matrix (Fin d) (Fin (k + p)) ℝ) : SameButDraws (.fit M X Q) (.fit M X Q')
  | other (c : Call k p d) (h : ∀ M X Q, c ≠ .fit M X Q) : SameButDraws c c

/-- The first `k` singular values of the data are positive and occur once. -/
def LeadingDistinct {M : Nat} (k : Nat) (X : Matrix (Fin M) (Fin d) ℝ) : Prop :=
  ∃ (U : Matrix (Fin M) (Fin d) ℝ) (s : Fin d → ℝ) (V : Matrix (Fin d) (Fin d) ℝ), IsThinSVD X U s V ∧
    ∀ i : Fin d, i.val < k → 0 < s i ∧ ∀ j, j ≠ i → s j ≠ s i

end OpenML.Spec
