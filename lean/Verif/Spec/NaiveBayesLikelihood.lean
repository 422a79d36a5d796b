import Verif.Spec.NaiveBayes
import Mathlib.Analysis.SpecialFunctions.Pow.Real

/-!
# Specification: likelihood of samples
-/

namespace OpenML.Spec

/-- The likelihood of samples with independent normal features. -/
noncomputable def normalLikelihood (mean var : List ℝ) (rows : List (List ℝ)) : ℝ := (rows.map (independentPdf mean var)).prod

/-- The likelihood of counts (up to a factor that does not depend on the probabilities) if feature `j` occurs with probability `q j`. -/
noncomputable def countLikelihood (q : List ℝ) (rows : List (List ℝ)) : ℝ :=
  (rows.map fun x => (List.zipWith (fun p a => p ^ a) q x).prod).prod

/-- The density of the symmetric Dirichlet distribution, up to a constant: every feature has been seen `alpha` times before. -/
noncomputable def seenBefore (alpha : ℝ) (q : List ℝ) : ℝ := (q.map fun p => p ^ alpha).prod

end OpenML.Spec
