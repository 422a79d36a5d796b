import Verif.Spec.KMeansRecovery
import Verif.Model.Res
import Mathlib.MeasureTheory.Measure.Lebesgue.Basic
import Mathlib.MeasureTheory.Integral.Lebesgue.Basic

/-!
# Specification: means over independent uniform random numbers, and finding the groups of samples
-/

namespace OpenML.Spec

open MeasureTheory

/-- The mean of `F` over `n` independent uniform random numbers from `[0, 1)`. -/
noncomputable def uniformMean : Nat → (List ℝ → ENNReal) → ENNReal
  | 0, F => F []
  | n + 1, F => ∫⁻ r in Set.Ico (0 : ℝ) 1, uniformMean n fun rs => F (r :: rs)

/-- The probability that `P` fails for `n` independent uniform random numbers from `[0, 1)`. -/
noncomputable def failureProbability (n : Nat) (P : List ℝ → Prop) : ENNReal :=
  open Classical in uniformMean n fun rs => if P rs then 0 else 1

/-- Labels were found, and two samples have the same label exactly if they are of one group. -/
def FindsGroups (G : List Nat) (r : Res (List Nat)) : Prop :=
  ∃ labels, r = .ok labels ∧ labels.length = G.length ∧
    ∀ i j (hi : i < G.length) (hj : j < G.length), labels[i]? = labels[j]? ↔ G[i] = G[j]

end OpenML.Spec
