import Verif.Lemmas.Descent
import Verif.Spec.LogisticMinimum
import Mathlib.Topology.Order.Compact
import Mathlib.Analysis.Calculus.LocalExtr.Basic
import Mathlib.Analysis.Normed.Module.FiniteDimension
import Mathlib.Topology.MetricSpace.ProperSpace.Lemmas

/-!
# Existence and uniqueness of minima of mean losses
-/

namespace OpenML.LogisticMinimum

open Spec Loss

/-- A mean loss with ridge term lies above its tangents by a multiple of the squared distance. -/
theorem strong_tangent {d : Nat} (phi dphi : ℝ → ℝ → ℝ) (ht : ∀ y s t, phi y s + dphi y s * (t - s) ≤ phi y t) (lambda : ℝ)
    (l : List (List ℝ × ℝ)) (v w : Fin d → ℝ) :
    meanLoss phi l w + lambda * ridgeTerm l.length w + ∑ j, gradOf dphi lambda l w j * (v j - w j) +
      lambda / (2 * l.length) * ∑ j, (v j - w j) ^ 2 ≤ meanLoss phi l v + lambda * ridgeTerm l.length v := by
  have h0 := meanLoss_tangent phi dphi ht 0 le_rfl l v w
  simp only [zero_mul, add_zero] at h0
  have h1 : ∑ j, gradOf dphi lambda l w j * (v j - w j) =
      ∑ j, gradOf dphi 0 l w j * (v j - w j) + lambda / l.length * ∑ j, w j * (v j - w j) := by
    rw [Finset.mul_sum, ← Finset.sum_add_distrib]
    refine Finset.sum_congr rfl fun j _ => ?_
    unfold gradOf
    ring
  have h2 : ∑ j, v j ^ 2 = ∑ j, w j ^ 2 + 2 * ∑ j, w j * (v j - w j) + ∑ j, (v j - w j) ^ 2 := by
    rw [Finset.mul_sum, ← Finset.sum_add_distrib, ← Finset.sum_add_distrib]
    exact Finset.sum_congr rfl fun j _ => by ring
  have h3 : lambda * ridgeTerm l.length v = lambda * ridgeTerm l.length w + lambda / l.length * ∑ j, w j * (v j - w j) +
      lambda / (2 * l.length) * ∑ j, (v j - w j) ^ 2 := by
    unfold ridgeTerm
    rw [h2]
    ring
  linarith

/-- A continuous function whose values outside of a box exceed its value at zero has a minimum. -/
theorem exists_min {d : Nat} (F : (Fin d → ℝ) → ℝ) (hF : Continuous F) (B : ℝ) (h : ∀ v, F v ≤ F 0 → ∀ j, |v j| ≤ B) :
    ∃ w, ∀ v, F w ≤ F v := by
  have hsub : {v | F v ≤ F 0} ⊆ Set.Icc (fun _ => -B) (fun _ => B) := fun v hv =>
    ⟨fun j => (abs_le.mp (h v hv j)).1, fun j => (abs_le.mp (h v hv j)).2⟩
  have hc : IsCompact {v | F v ≤ F 0} := isCompact_Icc.of_isClosed_subset (isClosed_le hF continuous_const) hsub
  obtain ⟨w, hw, hmin⟩ := hc.exists_isMinOn ⟨0, le_refl (F 0)⟩ hF.continuousOn
  refine ⟨w, fun v => ?_⟩
  by_cases hv : F v ≤ F 0
  · exact hmin hv
  · exact le_trans hw (not_le.mp hv).le

theorem exists_min_strong {d : Nat} (F : (Fin d → ℝ) → ℝ) (hF : Continuous F) (G : Fin d → ℝ) (c : ℝ) (hc : 0 < c)
    (h : ∀ v, F 0 + ∑ j, G j * v j + c * ∑ j, v j ^ 2 ≤ F v) : ∃ w, ∀ v, F w ≤ F v := by
  refine exists_min F hF (1 + ∑ j, G j ^ 2 / c ^ 2) fun v hv j => ?_
  have h1 := h v
  have h2 : ∑ j, (c * v j ^ 2 + G j * v j) ≤ 0 := by
    rw [Finset.sum_add_distrib, ← Finset.mul_sum]
    linarith
  have h3 : ∑ j, v j ^ 2 ≤ ∑ j, G j ^ 2 / c ^ 2 := by
    have : ∀ i, v i ^ 2 - G i ^ 2 / c ^ 2 ≤ 2 / c * (c * v i ^ 2 + G i * v i) := by
      intro i
      have e : 2 / c * (c * v i ^ 2 + G i * v i) = 2 * v i ^ 2 + 2 * (G i / c) * v i := by
        field_simp
      rw [e, ← div_pow]
      nlinarith [sq_nonneg (v i + G i / c)]
    have h4 := Finset.sum_le_sum fun i (_ : i ∈ Finset.univ) => this i
    rw [← Finset.mul_sum, Finset.sum_sub_distrib] at h4
    have h5 : 2 / c * ∑ i, (c * v i ^ 2 + G i * v i) ≤ 0 := mul_nonpos_of_nonneg_of_nonpos (by positivity) h2
    linarith
  have h4 : v j ^ 2 ≤ ∑ j, v j ^ 2 := Finset.single_le_sum (f := fun j => v j ^ 2) (fun j _ => sq_nonneg _) (Finset.mem_univ j)
  have h5 : 0 ≤ ∑ j, G j ^ 2 / c ^ 2 := Finset.sum_nonneg fun j _ => by positivity
  refine abs_le_of_sq_le_sq ?_ (by linarith)
  nlinarith

theorem continuous_score {d : Nat} (x : List ℝ) : Continuous fun w : Fin d → ℝ => score x w := by
  unfold score
  fun_prop

theorem continuous_objective {d : Nat} (phi : ℝ → ℝ → ℝ) (hphi : ∀ y, Continuous (phi y)) (lambda : ℝ) (l : List (List ℝ × ℝ)) (n : Nat) :
    Continuous fun w : Fin d → ℝ => meanLoss phi l w + lambda * ridgeTerm n w := by
  have h1 : Continuous fun w : Fin d → ℝ => (l.map fun p => phi p.2 (score p.1 w)).sum := by
    induction l with
    | nil => simpa using continuous_const
    | cons p l ih =>
      simp only [List.map_cons, List.sum_cons]
      exact ((hphi p.2).comp (continuous_score p.1)).add ih
  unfold meanLoss ridgeTerm
  fun_prop

theorem continuous_crossEntropy (y : ℝ) : Continuous (crossEntropy y) :=
  continuous_iff_continuousAt.mpr fun s => (crossEntropy_deriv y s).continuousAt

theorem continuous_halfSquare (y : ℝ) : Continuous (halfSquare y) := by
  unfold halfSquare
  fun_prop

/-- At a minimum the gradient is zero. -/
theorem gradient_zero {d : Nat} (phi dphi : ℝ → ℝ → ℝ) (hd : ∀ y s, HasDerivAt (phi y) (dphi y s) s) (lambda : ℝ)
    (l : List (List ℝ × ℝ)) (w : Fin d → ℝ)
    (h : ∀ v : Fin d → ℝ, meanLoss phi l w + lambda * ridgeTerm l.length w ≤ meanLoss phi l v + lambda * ridgeTerm l.length v) (j : Fin d) :
    gradOf dphi lambda l w j = 0 := by
  have h1 := isGradient_meanLoss phi dphi hd lambda l w
  have h2 : IsLocalMin (fun v : Fin d → ℝ => meanLoss phi l v + lambda * ridgeTerm l.length v) w := Filter.Eventually.of_forall h
  have h3 := congrArg (fun L : (Fin d → ℝ) →L[ℝ] ℝ => L (Pi.single j 1)) (h2.hasFDerivAt_eq_zero h1)
  simpa [ContinuousLinearMap.sum_apply, Pi.single_apply] using h3

/-- A mean loss with positive ridge term has a minimum, and gradients bound the distance from it. -/
theorem ridge_min {d : Nat} (phi dphi : ℝ → ℝ → ℝ) (hd : ∀ y s, HasDerivAt (phi y) (dphi y s) s)
    (ht : ∀ y s t, phi y s + dphi y s * (t - s) ≤ phi y t) (lambda : ℝ) (hl : 0 < lambda) (l : List (List ℝ × ℝ)) (hn : l ≠ []) :
    ∃ w : Fin d → ℝ, ∀ v : Fin d → ℝ,
      lambda / (2 * l.length) * ∑ j, (v j - w j) ^ 2 ≤
          meanLoss phi l v + lambda * ridgeTerm l.length v - (meanLoss phi l w + lambda * ridgeTerm l.length w) ∧
        meanLoss phi l v + lambda * ridgeTerm l.length v - (meanLoss phi l w + lambda * ridgeTerm l.length w) ≤
          l.length / (2 * lambda) * ∑ j, gradOf dphi lambda l v j ^ 2 ∧
        ∑ j, (v j - w j) ^ 2 ≤ (l.length / lambda) ^ 2 * ∑ j, gradOf dphi lambda l v j ^ 2 := by
  have hN : (0 : ℝ) < l.length := by exact_mod_cast List.length_pos_of_ne_nil hn
  have hphi : ∀ y, Continuous (phi y) := fun y => continuous_iff_continuousAt.mpr fun s => (hd y s).continuousAt
  obtain ⟨w, hw⟩ := exists_min_strong (fun w : Fin d → ℝ => meanLoss phi l w + lambda * ridgeTerm l.length w)
    (continuous_objective phi hphi lambda l l.length) (gradOf dphi lambda l 0) (lambda / (2 * l.length)) (by positivity) (fun v => by
      have := strong_tangent phi dphi ht lambda l v 0
      simpa using this)
  refine ⟨w, fun v => ?_⟩
  have hz := gradient_zero phi dphi hd lambda l w hw
  have h0 := strong_tangent phi dphi ht lambda l v w
  simp only [hz, zero_mul, Finset.sum_const_zero, add_zero] at h0
  have hgap : meanLoss phi l v + lambda * ridgeTerm l.length v - (meanLoss phi l w + lambda * ridgeTerm l.length w) ≤
      ∑ j, (gradOf dphi lambda l v j * (v j - w j) - lambda / (2 * l.length) * (v j - w j) ^ 2) := by
    have h1 := strong_tangent phi dphi ht lambda l w v
    have h2 : ∑ j, gradOf dphi lambda l v j * (w j - v j) = -∑ j, gradOf dphi lambda l v j * (v j - w j) := by
      rw [← Finset.sum_neg_distrib]
      exact Finset.sum_congr rfl fun j _ => by ring
    have h3 : ∑ j, (w j - v j) ^ 2 = ∑ j, (v j - w j) ^ 2 := Finset.sum_congr rfl fun j _ => by ring
    rw [h2, h3] at h1
    rw [Finset.sum_sub_distrib, ← Finset.mul_sum]
    linarith
  refine ⟨by linarith, hgap.trans ?_, ?_⟩
  · rw [Finset.mul_sum]
    refine Finset.sum_le_sum fun j _ => ?_
    generalize gradOf dphi lambda l v j = g
    generalize v j - w j = t
    have : l.length / (2 * lambda) * g ^ 2 - (g * t - lambda / (2 * l.length) * t ^ 2) =
        lambda / (2 * l.length) * (t - l.length / lambda * g) ^ 2 := by
      field_simp
      ring
    have h0 : 0 ≤ lambda / (2 * l.length) * (t - l.length / lambda * g) ^ 2 := by positivity
    linarith
  · have h1 : 0 ≤ ∑ j, (gradOf dphi lambda l v j * (v j - w j) - 2 * (lambda / (2 * l.length)) * (v j - w j) ^ 2) := by
      rw [Finset.sum_sub_distrib, ← Finset.mul_sum] at hgap ⊢
      linarith
    have h2 : ∑ j, (gradOf dphi lambda l v j * (v j - w j) - 2 * (lambda / (2 * l.length)) * (v j - w j) ^ 2) ≤
        ∑ j, (l.length / (2 * lambda) * gradOf dphi lambda l v j ^ 2 - lambda / (2 * l.length) * (v j - w j) ^ 2) := by
      refine Finset.sum_le_sum fun j _ => ?_
      generalize gradOf dphi lambda l v j = g
      generalize v j - w j = t
      have : l.length / (2 * lambda) * g ^ 2 - lambda / (2 * l.length) * t ^ 2 - (g * t - 2 * (lambda / (2 * l.length)) * t ^ 2) =
          lambda / (2 * l.length) * (t - l.length / lambda * g) ^ 2 := by
        field_simp
        ring
      have h0 : 0 ≤ lambda / (2 * l.length) * (t - l.length / lambda * g) ^ 2 := by positivity
      linarith
    have h3 := h1.trans h2
    rw [Finset.sum_sub_distrib, ← Finset.mul_sum, ← Finset.mul_sum] at h3
    have h4 : ∑ j, (v j - w j) ^ 2 = 2 * l.length / lambda * (lambda / (2 * l.length) * ∑ j, (v j - w j) ^ 2) := by
      field_simp
    rw [h4]
    calc _ ≤ 2 * l.length / lambda * (l.length / (2 * lambda) * ∑ j, gradOf dphi lambda l v j ^ 2) :=
          mul_le_mul_of_nonneg_left (by linarith) (by positivity)
      _ = _ := by field_simp

/-- The cross entropy of a label zero or one is at least the score on the wrong side. -/
theorem crossEntropy_ge (y s : ℝ) (hy : y = 0 ∨ y = 1) : max 0 ((1 - 2 * y) * s) ≤ crossEntropy y s := by
  refine max_le (Descent.crossEntropy_nonneg y s (by rcases hy with rfl | rfl <;> norm_num) (by rcases hy with rfl | rfl <;> norm_num)) ?_
  have hp := Real.sigmoid_pos s
  unfold crossEntropy
  rcases hy with rfl | rfl
  · have h1 : 1 - Real.sigmoid s = Real.sigmoid (-s) := (Real.sigmoid_neg s).symm
    have h2 : Real.log (Real.sigmoid (-s)) ≤ -s := by
      rw [Real.log_le_iff_le_exp (Real.sigmoid_pos _), Real.sigmoid_def, neg_neg]
      rw [Real.exp_neg]
      exact inv_anti₀ (Real.exp_pos s) (by linarith [Real.exp_pos s])
    rw [h1]
    linarith
  · have h2 : Real.log (Real.sigmoid s) ≤ s := by
      rw [Real.log_le_iff_le_exp (Real.sigmoid_pos _), Real.sigmoid_def]
      calc (1 + Real.exp (-s))⁻¹ ≤ (Real.exp (-s))⁻¹ := inv_anti₀ (Real.exp_pos _) (by linarith [Real.exp_pos (-s)])
        _ = Real.exp s := by rw [Real.exp_neg, inv_inv]
    linarith

/-- The cross entropy of the label one falls with the score, that of zero rises. -/
theorem crossEntropy_lt (y s t : ℝ) (h : (y = 1 ∧ 0 < t) ∨ (y = 0 ∧ t < 0)) : crossEntropy y (s + t) < crossEntropy y s := by
  have h1 := crossEntropy_tangent y (s + t) s
  have hp := Real.sigmoid_pos (s + t)
  have hq := Real.sigmoid_lt_one (s + t)
  rcases h with ⟨rfl, ht⟩ | ⟨rfl, ht⟩ <;> nlinarith

/-- The tangent bound of the cross entropy is strict away from the point of contact. -/
theorem crossEntropy_strict (y s t : ℝ) (h : s ≠ t) : crossEntropy y s + (Real.sigmoid s - y) * (t - s) < crossEntropy y t := by
  have h1 := crossEntropy_tangent y s ((s + t) / 2)
  have h2 := crossEntropy_tangent y ((s + t) / 2) t
  have h3 : 0 < (Real.sigmoid ((s + t) / 2) - Real.sigmoid s) * (t - s) := by
    rcases lt_or_gt_of_ne h with h | h
    · exact mul_pos (sub_pos.mpr (Real.sigmoid_strictMono (by linarith))) (by linarith)
    · exact mul_pos_of_neg_of_neg (sub_neg.mpr (Real.sigmoid_strictMono (by linarith))) (by linarith)
  nlinarith

/-- Sums of cross entropies over a subspace of scores. -/
theorem exists_scores {n : Nat} (y : Fin n → ℝ) (hy : ∀ i, y i = 0 ∨ y i = 1) (Z : Submodule ℝ (Fin n → ℝ))
    (h : ∀ z ∈ Z, (∀ i, (1 - 2 * y i) * z i ≤ 0) → z = 0) :
    ∃ z ∈ Z, ∀ u ∈ Z, ∑ i, crossEntropy (y i) (z i) ≤ ∑ i, crossEntropy (y i) (u i) := by
  have hZ : IsClosed (Z : Set (Fin n → ℝ)) := Z.closed_of_finiteDimensional
  have hcont : Continuous fun z : Fin n → ℝ => ∑ i, crossEntropy (y i) (z i) :=
    continuous_finsetSum _ fun i _ => (continuous_crossEntropy (y i)).comp (continuous_apply i)
  have hphi : Continuous fun z : Fin n → ℝ => ∑ i, max 0 ((1 - 2 * y i) * z i) := by fun_prop
  have hS : IsCompact ((Z : Set (Fin n → ℝ)) ∩ Metric.sphere 0 1) := (isCompact_sphere 0 1).inter_left hZ
  obtain ⟨e, he, hb⟩ : ∃ e : ℝ, 0 < e ∧ ∀ z ∈ Z, ‖z‖ = 1 → e ≤ ∑ i, max 0 ((1 - 2 * y i) * z i) := by
    rcases Set.eq_empty_or_nonempty ((Z : Set (Fin n → ℝ)) ∩ Metric.sphere 0 1) with hE | hE
    · exact ⟨1, one_pos, fun z hz hz1 => absurd (show z ∈ (Z : Set (Fin n → ℝ)) ∩ Metric.sphere 0 1 from ⟨hz, by simpa using hz1⟩)
        (by rw [hE]; exact Set.notMem_empty z)⟩
    · obtain ⟨z, ⟨hz, hz1⟩, hmin⟩ := hS.exists_isMinOn hE hphi.continuousOn
      refine ⟨_, ?_, fun u hu hu1 => hmin (show u ∈ (Z : Set (Fin n → ℝ)) ∩ Metric.sphere 0 1 from ⟨hu, by simpa using hu1⟩)⟩
      have h0 : 0 ≤ ∑ i, max 0 ((1 - 2 * y i) * z i) := Finset.sum_nonneg fun i _ => le_max_left _ _
      refine lt_of_le_of_ne h0 fun h0 => ?_
      have h1 := (Finset.sum_eq_zero_iff_of_nonneg fun i _ => le_max_left 0 ((1 - 2 * y i) * z i)).mp h0.symm
      have h2 := h z hz fun i => le_trans (le_max_right 0 _) (h1 i (Finset.mem_univ i)).le
      rw [h2] at hz1
      simp at hz1
  have hgrow : ∀ z ∈ Z, e * ‖z‖ ≤ ∑ i, crossEntropy (y i) (z i) := by
    intro z hz
    refine le_trans ?_ (Finset.sum_le_sum fun i _ => crossEntropy_ge (y i) (z i) (hy i))
    rcases eq_or_ne z 0 with rfl | hne
    · simp
    · have hpos : 0 < ‖z‖ := norm_pos_iff.mpr hne
      have h1 := hb (‖z‖⁻¹ • z) (Z.smul_mem _ hz) (by rw [norm_smul, norm_inv, norm_norm, inv_mul_cancel₀ hpos.ne'])
      have h2 : ∑ i, max 0 ((1 - 2 * y i) * (‖z‖⁻¹ • z) i) = ‖z‖⁻¹ * ∑ i, max 0 ((1 - 2 * y i) * z i) := by
        rw [Finset.mul_sum]
        refine Finset.sum_congr rfl fun i _ => ?_
        rw [mul_max_of_nonneg _ _ (inv_nonneg.mpr hpos.le), mul_zero, Pi.smul_apply, smul_eq_mul]
        congr 1
        ring
      rw [h2, ← div_eq_inv_mul, le_div_iff₀ hpos] at h1
      exact h1
  have hK : IsCompact ((Z : Set (Fin n → ℝ)) ∩ Metric.closedBall 0 ((∑ i, crossEntropy (y i) 0) / e)) :=
    (isCompact_closedBall 0 _).inter_left hZ
  have hF0 : 0 ≤ ∑ i, crossEntropy (y i) 0 := Finset.sum_nonneg fun i _ => le_trans (le_max_left _ _) (crossEntropy_ge (y i) 0 (hy i))
  obtain ⟨z, ⟨hz, _⟩, hmin⟩ := hK.exists_isMinOn ⟨0, Z.zero_mem, by simpa using div_nonneg hF0 he.le⟩ hcont.continuousOn
  refine ⟨z, hz, fun u hu => ?_⟩
  by_cases hle : ∑ i, crossEntropy (y i) (u i) ≤ ∑ i, crossEntropy (y i) 0
  · exact hmin (show u ∈ (Z : Set (Fin n → ℝ)) ∩ Metric.closedBall 0 ((∑ i, crossEntropy (y i) 0) / e) from
      ⟨hu, by rw [mem_closedBall_zero_iff, le_div_iff₀ he, mul_comm]; exact (hgrow u hu).trans hle⟩)
  · have h0 := hmin (show (0 : Fin n → ℝ) ∈ (Z : Set (Fin n → ℝ)) ∩ Metric.closedBall 0 ((∑ i, crossEntropy (y i) 0) / e) from
      ⟨Z.zero_mem, by simpa using div_nonneg hF0 he.le⟩)
    exact le_trans h0 (not_le.mp hle).le

theorem score_add {d : Nat} (x : List ℝ) (v w : Fin d → ℝ) : score x (v + w) = score x v + score x w := by
  simp [score, mul_add, Finset.sum_add_distrib]

theorem score_smul {d : Nat} (x : List ℝ) (c : ℝ) (w : Fin d → ℝ) : score x (c • w) = c * score x w := by
  simp only [score, Pi.smul_apply, smul_eq_mul, Finset.mul_sum]
  exact Finset.sum_congr rfl fun j _ => by ring

/-- The scores of all samples as a linear map. -/
noncomputable def scores {d : Nat} (l : List (List ℝ × ℝ)) : (Fin d → ℝ) →ₗ[ℝ] (Fin l.length → ℝ) where
  toFun w i := score l[i].1 w
  map_add' v w := funext fun i => score_add _ v w
  map_smul' c w := funext fun i => score_smul _ c w

theorem meanLoss_scores {d : Nat} (phi : ℝ → ℝ → ℝ) (l : List (List ℝ × ℝ)) (w : Fin d → ℝ) :
    meanLoss phi l w = (∑ i, phi l[i].2 (scores l w i)) / l.length := by
  unfold meanLoss
  congr 1
  have : l.map (fun p => phi p.2 (score p.1 w)) = List.ofFn fun i : Fin l.length => phi l[i].2 (scores l w i) := by
    apply List.ext_getElem
    · simp
    · intro i h1 h2
      simp [scores]
  rw [this, List.sum_ofFn]

/-- Without ridge term a minimum of the cross entropy exists exactly if the classes overlap. -/
theorem exists_min_iff {d : Nat} (rows : List (List ℝ)) (y : List ℝ) (hn : rows.zip y ≠ []) (hy : ∀ a ∈ y, a = 0 ∨ a = 1) :
    (∃ w : Fin d → ℝ, ∀ v : Fin d → ℝ, meanLoss crossEntropy (rows.zip y) w ≤ meanLoss crossEntropy (rows.zip y) v) ↔ Overlap d rows y := by
  have hl : ∀ p ∈ rows.zip y, p.2 = 0 ∨ p.2 = 1 := fun p hp => hy p.2 (List.of_mem_zip hp).2
  have hN : (0 : ℝ) < (rows.zip y).length := by exact_mod_cast List.length_pos_of_ne_nil hn
  unfold Overlap
  generalize rows.zip y = l at *
  constructor
  · rintro ⟨w, hw⟩ u hu p hp
    by_contra hne
    have hlt : ∑ i, crossEntropy l[i].2 (scores l (w + u) i) < ∑ i, crossEntropy l[i].2 (scores l w i) := by
      refine Finset.sum_lt_sum (fun i _ => ?_) ?_
      · have hi := hu l[i] (List.getElem_mem _)
        rw [map_add, Pi.add_apply]
        rcases eq_or_ne (scores l u i) 0 with h0 | h0
        · rw [h0, add_zero]
        · refine (crossEntropy_lt _ _ _ ?_).le
          rcases hl l[i] (List.getElem_mem _) with h | h
          · exact Or.inr ⟨h, lt_of_le_of_ne (hi.2 h) h0⟩
          · exact Or.inl ⟨h, lt_of_le_of_ne (hi.1 h) (Ne.symm h0)⟩
      · obtain ⟨i, hi, rfl⟩ := List.getElem_of_mem hp
        refine ⟨⟨i, hi⟩, Finset.mem_univ _, ?_⟩
        have hi' := hu l[i] (List.getElem_mem _)
        rw [map_add, Pi.add_apply]
        refine crossEntropy_lt _ _ _ ?_
        rcases hl l[i] (List.getElem_mem _) with h | h
        · exact Or.inr ⟨h, lt_of_le_of_ne (hi'.2 h) hne⟩
        · exact Or.inl ⟨h, lt_of_le_of_ne (hi'.1 h) (Ne.symm hne)⟩
    have h1 := hw (w + u)
    rw [meanLoss_scores, meanLoss_scores, div_le_div_iff_of_pos_right hN] at h1
    exact absurd h1 (not_le.mpr hlt)
  · intro h
    obtain ⟨z, ⟨w, rfl⟩, hz⟩ := exists_scores (fun i : Fin l.length => l[i].2) (fun i => hl l[i] (List.getElem_mem _))
      (LinearMap.range (scores (d := d) l)) (by
        rintro z ⟨u, rfl⟩ hz
        funext i
        refine h u (fun p hp => ?_) l[i] (List.getElem_mem _)
        obtain ⟨i, hi, rfl⟩ := List.getElem_of_mem hp
        have h1 : (1 - 2 * l[i].2) * score l[i].1 u ≤ 0 := hz ⟨i, hi⟩
        constructor
        · intro h2
          rw [h2] at h1
          linarith
        · intro h2
          rw [h2] at h1
          linarith)
    refine ⟨w, fun v => ?_⟩
    rw [meanLoss_scores, meanLoss_scores, div_le_div_iff_of_pos_right hN]
    exact hz _ ⟨v, rfl⟩

/-- Two minima have the same scores. -/
theorem min_scores {d : Nat} (l : List (List ℝ × ℝ)) (v w : Fin d → ℝ)
    (hw : ∀ u : Fin d → ℝ, meanLoss crossEntropy l w ≤ meanLoss crossEntropy l u) :
    meanLoss crossEntropy l v ≤ meanLoss crossEntropy l w ↔ ∀ p ∈ l, score p.1 v = score p.1 w := by
  have hg : ∀ j, gradOf (fun a s => Real.sigmoid s - a) 0 l w j = 0 :=
    gradient_zero crossEntropy _ crossEntropy_deriv 0 l w (by simpa using hw)
  constructor
  · intro h p hp
    by_contra hne
    have hN : (0 : ℝ) < l.length := by exact_mod_cast List.length_pos_of_mem hp
    have hlt : ∑ i, (crossEntropy l[i].2 (scores l w i) + (Real.sigmoid (scores l w i) - l[i].2) * (scores l v i - scores l w i)) <
        ∑ i, crossEntropy l[i].2 (scores l v i) := by
      refine Finset.sum_lt_sum (fun i _ => crossEntropy_tangent _ _ _) ?_
      obtain ⟨i, hi, rfl⟩ := List.getElem_of_mem hp
      exact ⟨⟨i, hi⟩, Finset.mem_univ _, crossEntropy_strict _ _ _ fun e => hne e.symm⟩
    have hz : ∑ i : Fin l.length, (Real.sigmoid (scores l w i) - l[i].2) * (scores l v i - scores l w i) = 0 := by
      have h1 : ∀ j : Fin d, ∑ i : Fin l.length, (Real.sigmoid (scores l w i) - l[i].2) * l[i].1.getD j 0 = 0 := by
        intro j
        have h2 := hg j
        unfold gradOf at h2
        rw [mul_zero, add_zero, div_eq_zero_iff, or_iff_left hN.ne'] at h2
        refine Eq.trans ?_ h2
        rw [← List.sum_ofFn]
        congr 1
        apply List.ext_getElem
        · simp
        · intro i h3 h4
          rw [List.getElem_ofFn, List.getElem_map]
          rfl
      have h2 : ∀ i : Fin l.length, (Real.sigmoid (scores l w i) - l[i].2) * (scores l v i - scores l w i) =
          ∑ j : Fin d, (v j - w j) * ((Real.sigmoid (scores l w i) - l[i].2) * l[i].1.getD j 0) := by
        intro i
        have h3 : scores l v i - scores l w i = ∑ j : Fin d, l[i].1.getD j 0 * (v j - w j) := by
          show score _ v - score _ w = _
          simp only [score, mul_sub, Finset.sum_sub_distrib]
        rw [h3, Finset.mul_sum]
        exact Finset.sum_congr rfl fun j _ => by ring
      rw [Finset.sum_congr rfl fun i _ => h2 i, Finset.sum_comm]
      refine Finset.sum_eq_zero fun j _ => ?_
      rw [← Finset.mul_sum, h1, mul_zero]
    rw [Finset.sum_add_distrib, hz, add_zero, ← div_lt_div_iff_of_pos_right hN, ← meanLoss_scores, ← meanLoss_scores] at hlt
    exact absurd h (not_le.mpr hlt)
  · intro h
    refine le_of_eq ?_
    unfold meanLoss
    congr 2
    exact List.map_congr_left fun p hp => by rw [h p hp]

end OpenML.LogisticMinimum
