import Verif.Lemmas.Sampling
import Mathlib.Probability.Moments.SubGaussian
import Mathlib.Probability.ProbabilityMassFunction.Integrals
import Mathlib.Probability.Distributions.Uniform

/-!
# Sampling without replacement is at least as concentrated as with replacement
-/

namespace OpenML.Sampling

open Spec Random Data

variable {n : Nat}

section perm
variable (z : Fin n → ℝ)

/-- The sum over all orders of the product of the values at the positions in `T`. -/
noncomputable def productSum (T : Finset (Fin n)) : ℝ := ∑ s : Equiv.Perm (Fin n), ∏ i ∈ T, z (s i)

theorem prod_swap (s : Equiv.Perm (Fin n)) (T : Finset (Fin n)) (j k : Fin n) (hj : j ∉ T) (hk : k ∉ T) :
    ∏ i ∈ T, z ((s * Equiv.swap j k) i) = ∏ i ∈ T, z (s i) := by
  refine Finset.prod_congr rfl fun i hi => ?_
  have h1 : i ≠ j := fun h => hj (h ▸ hi)
  have h2 : i ≠ k := fun h => hk (h ▸ hi)
  rw [Equiv.Perm.mul_apply, Equiv.swap_apply_of_ne_of_ne h1 h2]

/-- Another position instead of `j`. -/
theorem other_position (T : Finset (Fin n)) (j k : Fin n) (hj : j ∉ T) (hk : k ∉ T) :
    ∑ s : Equiv.Perm (Fin n), (∏ i ∈ T, z (s i)) * z (s k) = ∑ s : Equiv.Perm (Fin n), (∏ i ∈ T, z (s i)) * z (s j) := by
  rw [← Equiv.sum_comp (Equiv.mulRight (Equiv.swap j k)) fun s => (∏ i ∈ T, z (s i)) * z (s k)]
  refine Finset.sum_congr rfl fun s _ => ?_
  rw [Equiv.coe_mulRight, prod_swap z s T j k hj hk, Equiv.Perm.mul_apply, Equiv.swap_apply_right]

/-- A position twice gives at least as much as a new position. -/
theorem repeated_position (hz : ∀ i, 0 ≤ z i) (T : Finset (Fin n)) (j k : Fin n) (hj : j ∉ T) (hk : k ∈ T) :
    ∑ s : Equiv.Perm (Fin n), (∏ i ∈ T, z (s i)) * z (s j) ≤ ∑ s : Equiv.Perm (Fin n), (∏ i ∈ T, z (s i)) * z (s k) := by
  have hsplit : ∀ s : Equiv.Perm (Fin n), ∏ i ∈ T, z (s i) = (∏ i ∈ T.erase k, z (s i)) * z (s k) := fun s =>
    (Finset.prod_erase_mul T (fun i => z (s i)) hk).symm
  have hj' : j ∉ T.erase k := fun h => hj (Finset.mem_of_mem_erase h)
  have hk' : k ∉ T.erase k := Finset.notMem_erase k T
  have e : ∑ s : Equiv.Perm (Fin n), (∏ i ∈ T.erase k, z (s i)) * (z (s k) * z (s k)) =
      ∑ s : Equiv.Perm (Fin n), (∏ i ∈ T.erase k, z (s i)) * (z (s j) * z (s j)) := by
    rw [← Equiv.sum_comp (Equiv.mulRight (Equiv.swap j k)) fun s => (∏ i ∈ T.erase k, z (s i)) * (z (s k) * z (s k))]
    refine Finset.sum_congr rfl fun s _ => ?_
    rw [Equiv.coe_mulRight, prod_swap z s _ j k hj' hk', Equiv.Perm.mul_apply, Equiv.swap_apply_right]
  have pos : 0 ≤ ∑ s : Equiv.Perm (Fin n), (∏ i ∈ T.erase k, z (s i)) * (z (s k) - z (s j)) ^ 2 :=
    Finset.sum_nonneg fun s _ => mul_nonneg (Finset.prod_nonneg fun i _ => hz _) (sq_nonneg _)
  have expand : ∑ s : Equiv.Perm (Fin n), (∏ i ∈ T.erase k, z (s i)) * (z (s k) - z (s j)) ^ 2 =
      ∑ s : Equiv.Perm (Fin n), (∏ i ∈ T.erase k, z (s i)) * (z (s k) * z (s k)) +
      ∑ s : Equiv.Perm (Fin n), (∏ i ∈ T.erase k, z (s i)) * (z (s j) * z (s j)) -
      2 * ∑ s : Equiv.Perm (Fin n), (∏ i ∈ T, z (s i)) * z (s j) := by
    rw [Finset.mul_sum, ← Finset.sum_add_distrib, ← Finset.sum_sub_distrib]
    refine Finset.sum_congr rfl fun s _ => ?_
    rw [hsplit s]
    ring
  have same : ∑ s : Equiv.Perm (Fin n), (∏ i ∈ T, z (s i)) * z (s k) =
      ∑ s : Equiv.Perm (Fin n), (∏ i ∈ T.erase k, z (s i)) * (z (s k) * z (s k)) :=
    Finset.sum_congr rfl fun s _ => by rw [hsplit s, mul_assoc]
  linarith

/-- One more position multiplies by at most the mean. -/
theorem product_step (hz : ∀ i, 0 ≤ z i) (T : Finset (Fin n)) (j : Fin n) (hj : j ∉ T) :
    n * productSum z (insert j T) ≤ (∑ i, z i) * productSum z T := by
  have h1 : (∑ i, z i) * productSum z T = ∑ k : Fin n, ∑ s : Equiv.Perm (Fin n), (∏ i ∈ T, z (s i)) * z (s k) := by
    rw [Finset.sum_comm, productSum, Finset.mul_sum]
    refine Finset.sum_congr rfl fun s _ => ?_
    rw [← Finset.mul_sum, Equiv.sum_comp s z, mul_comm]
  have h2 : productSum z (insert j T) = ∑ s : Equiv.Perm (Fin n), (∏ i ∈ T, z (s i)) * z (s j) :=
    Finset.sum_congr rfl fun s _ => by rw [Finset.prod_insert hj, mul_comm]
  rw [h1, h2]
  have : (n : ℝ) * ∑ s : Equiv.Perm (Fin n), (∏ i ∈ T, z (s i)) * z (s j) =
      ∑ _k : Fin n, ∑ s : Equiv.Perm (Fin n), (∏ i ∈ T, z (s i)) * z (s j) := by simp
  rw [this]
  refine Finset.sum_le_sum fun k _ => ?_
  by_cases hk : k ∈ T
  · exact repeated_position z hz T j k hj hk
  · exact (other_position z T j k hj hk).ge

/-- Products over different positions are on average at most powers of the mean. -/
theorem product_le (hn : 0 < n) (hz : ∀ i, 0 ≤ z i) (T : Finset (Fin n)) :
    productSum z T ≤ n.factorial * ((∑ i, z i) / n) ^ T.card := by
  induction T using Finset.induction_on with
  | empty => simp [productSum, Fintype.card_perm]
  | insert j T hj ih =>
    have h := product_step z hz T j hj
    have hn' : (0 : ℝ) < n := by exact_mod_cast hn
    have hm : 0 ≤ (∑ i, z i) / n := div_nonneg (Finset.sum_nonneg fun i _ => hz i) hn'.le
    rw [Finset.card_insert_of_notMem hj, pow_succ]
    have h' : productSum z (insert j T) ≤ (∑ i, z i) / n * productSum z T := by
      rw [div_mul_eq_mul_div, le_div_iff₀ hn']
      linarith
    refine h'.trans ((mul_le_mul_of_nonneg_left ih hm).trans (le_of_eq (by ring)))

end perm

/-- Hoeffding's lemma for a list of values. -/
theorem hoeffding_lemma (hn : 0 < n) (x : Fin n → ℝ) (hx : ∀ i, 0 ≤ x i ∧ x i ≤ 1) (t : ℝ) :
    (∑ i, Real.exp (t * (x i - (∑ k, x k) / n))) / n ≤ Real.exp (t ^ 2 / 8) := by
  have : Nonempty (Fin n) := ⟨⟨0, hn⟩⟩
  let P := (PMF.uniformOfFintype (Fin n)).toMeasure
  have int : ∀ f : Fin n → ℝ, ∫ i, f i ∂P = (∑ i, f i) / n := by
    intro f
    rw [PMF.integral_eq_sum]
    simp [PMF.uniformOfFintype_apply, Finset.mul_sum, div_eq_inv_mul]
  have h := (ProbabilityTheory.hasSubgaussianMGF_of_mem_Icc (μ := P) (X := x) (a := 0) (b := 1)
    (measurable_of_finite x).aemeasurable (Filter.Eventually.of_forall fun i => hx i)).mgf_le t
  rw [ProbabilityTheory.mgf, int, int] at h
  refine h.trans (le_of_eq ?_)
  congr 1
  norm_num
  ring

end OpenML.Sampling
