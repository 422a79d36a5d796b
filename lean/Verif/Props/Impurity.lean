import Verif.Lemmas.Impurity
import Mathlib.Tactic.NormNum

/-!
# C30: Gini impurity and entropy
-/

set_option linter.unusedSectionVars false

namespace OpenML
open Impurity Spec

variable {β : Type} [LinearOrder β] {K : Type} [Field K] [LinearOrder K] [IsStrictOrderedRing K]

/-- C30. Without weights `gini` and `entropy` return one minus the sum of squared relative frequencies and the Shannon entropy
in bits. -/
theorem C30_values (x : List β) :
    gini x ([] : List K) = .ok (1 - ∑ k ∈ x.toFinset, ((x.count k : K) / (x.length : K)) ^ 2) ∧
    entropy x [] = .ok (∑ k ∈ x.toFinset, -((x.count k : ℝ) / (x.length : ℝ) *
      Real.logb 2 ((x.count k : ℝ) / (x.length : ℝ)))) := by
  refine ⟨gini_unweighted x, ?_⟩
  rw [entropy_unweighted]
  congr 1
  exact Finset.sum_congr rfl fun k _ => by rw [Real.negMulLog, Real.logb, freq]; ring

/-- C30. For a non-empty label vector the Gini impurity lies in `[0,1)` and is 0 exactly if all labels agree. -/
theorem C30_gini_range (x : List β) (h : x ≠ []) :
    ∃ g, gini x ([] : List K) = .ok g ∧ 0 ≤ g ∧ g < 1 ∧ (g = 0 ↔ ∀ a ∈ x, ∀ b ∈ x, a = b) :=
  ⟨_, gini_unweighted x, (gini_range x h).1, (gini_range x h).2, gini_zero x h⟩

/-- C30. The entropy is not negative and is 0 exactly if all labels agree. -/
theorem C30_entropy_range (x : List β) (h : x ≠ []) :
    ∃ e, entropy x [] = .ok e ∧ 0 ≤ e ∧ (e = 0 ↔ ∀ a ∈ x, ∀ b ∈ x, a = b) :=
  ⟨_, entropy_unweighted x, shannon_nonneg x, shannon_zero x h⟩

/-- C30. Neither depends on the order of the samples. -/
theorem C30_order_independent (x y : List β) (h : x.Perm y) :
    gini x ([] : List K) = gini y [] ∧ entropy x [] = entropy y [] := by
  rw [gini_unweighted, gini_unweighted, entropy_unweighted, entropy_unweighted]
  constructor
  · simp only [giniImpurity, toFinset_perm h, freq_perm h]
  · simp only [shannon, toFinset_perm h, freq_perm h]

/-- C30. Splitting the samples into two parts - in any order, one of them possibly empty - does not increase the size-weighted
Gini impurity. -/
theorem C30_gini_split (x l r : List β) (h : x.Perm (l ++ r)) (hn : x ≠ []) :
    ∃ g gl gr : K, gini x [] = .ok g ∧ gini l [] = .ok gl ∧ gini r [] = .ok gr ∧
      (l.length : K) / (x.length : K) * gl + (r.length : K) / (x.length : K) * gr ≤ g := by
  refine ⟨_, _, _, gini_unweighted x, gini_unweighted l, gini_unweighted r, ?_⟩
  have hn' : l ++ r ≠ [] := fun h0 => hn (by rw [h0] at h; exact h.eq_nil)
  have e : (giniImpurity x : K) = giniImpurity (l ++ r) := by simp only [giniImpurity, toFinset_perm h, freq_perm h]
  rw [h.length_eq, e]
  exact gini_split l r hn'

/-- C30. The same for the entropy: the information gain of a split is not negative. -/
theorem C30_entropy_split (x l r : List β) (h : x.Perm (l ++ r)) (hn : x ≠ []) :
    ∃ e el er : ℝ, entropy x [] = .ok e ∧ entropy l [] = .ok el ∧ entropy r [] = .ok er ∧
      (l.length : ℝ) / (x.length : ℝ) * el + (r.length : ℝ) / (x.length : ℝ) * er ≤ e := by
  refine ⟨_, _, _, entropy_unweighted x, entropy_unweighted l, entropy_unweighted r, ?_⟩
  have hn' : l ++ r ≠ [] := fun h0 => hn (by rw [h0] at h; exact h.eq_nil)
  have e : shannon x = shannon (l ++ r) := by simp only [shannon, toFinset_perm h, freq_perm h]
  rw [h.length_eq, e]
  exact shannon_split l r hn'

/-- C30. With one weight per sample the relative frequency of a label is replaced by the total weight of its samples divided
by the number of samples (not by the total weight); any other non-zero number of weights is refused. -/
theorem C30_weighted (x : List β) (w : List K) (hw : w ≠ []) :
    (w.length = x.length → gini x w = .ok (1 - ∑ k ∈ x.toFinset,
      ((((x.zip w).filter fun p => p.1 = k).map Prod.snd).sum / (x.length : K)) ^ 2)) ∧
    (w.length ≠ x.length → gini x w = .throw .invalidArgument) := by
  have hl : w.length ≠ 0 := by simpa using hw
  constructor
  · intro h
    simp only [gini, effectiveWeights, hw, if_false, h, ne_eq, not_true_eq_false, and_false, Res.bind_ok, sum_keys]
    congr 2
    refine Finset.sum_congr rfl fun k hk => ?_
    rw [share_eq x w h k (by simpa using hk)]
    congr 3
    unfold weightsOf
    generalize x.zip w = l
    induction l with
    | nil => rfl
    | cons p l ih => by_cases hp : p.1 = k <;> simp [hp, ih]
  · intro h
    simp [gini, effectiveWeights, hw, h]

example : gini ([1, 2, 1, 3] : List Nat) ([] : List ℚ) = .ok (5 / 8) := by decide +kernel
example : gini ([1, 2, 1, 3] : List Nat) ([1, 2, 3, 1] : List ℚ) = .ok (-5 / 16) := by decide +kernel
example : gini ([] : List Nat) ([] : List ℚ) = .ok 1 := by decide +kernel
example : ([1, 2, 1, 3] : List Nat).Perm ([1, 1] ++ [2, 3]) := by decide

end OpenML
