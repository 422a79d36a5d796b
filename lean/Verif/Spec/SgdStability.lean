import Verif.Spec.LogStability

/-!
# Specification: how different two training sets are
-/

namespace OpenML.Spec

open Classical in
/-- Lengths of the samples in which two training sets differ, position by position. -/
noncomputable def changed (l l' : List (List ℝ × ℝ)) : ℝ :=
  ((l.zip l').map fun c => if c.1 = c.2 then 0 else rowSize c.1.1 + rowSize c.2.1).sum

/-- A sample with a one appended to its features. -/
def withBias (s : List ℝ × ℝ) : List ℝ × ℝ := (s.1 ++ [1], s.2)

end OpenML.Spec
