import Verif.Lemmas.LinearModel
import Verif.Spec.LinearModel
import Mathlib.LinearAlgebra.Matrix.Notation
import Mathlib.LinearAlgebra.Matrix.Determinant.Basic
import Mathlib.Tactic.FinCases
import Mathlib.Tactic.NormNum

/-!
# C56, C77: linear and ridge regression
-/

set_option linter.unusedSectionVars false

namespace OpenML

open Matrix Spec LinearModel

theorem squaredError_eq {n : Nat} (p y : Fin n → ℝ) : squaredError p y = (p - y) ⬝ᵥ (p - y) := by
  simp [squaredError, dotProduct, pow_two]

theorem squaredNorm_eq {n : Nat} (w : Fin n → ℝ) : squaredNorm w = w ⬝ᵥ w := by
  simp [squaredNorm, dotProduct, pow_two]

/-- C56: if `LinearRegression::fit` returns finite weights they are the only minimiser of the squared error of `predict` on the
training data; it fails to exactly if two different weight vectors have equal predictions. -/
theorem C56_linear {n d : Nat} (b : Bool) (X : Matrix (Fin n) (Fin d) ℝ) (y : Fin n → ℝ) :
    (∀ w, fitLinear b X y = some w → IsUniqueMinimiser (fun v => squaredError (predict X b v) y) w) ∧
    (fitLinear b X y = none ↔ ∃ v w, v ≠ w ∧ predict X b v = predict X b w) := by
  have hdet : ((design X b)ᵀ * design X b).det = 0 ↔ ∃ v w, v ≠ w ∧ predict X b v = predict X b w := by
    rw [← Matrix.exists_mulVec_eq_zero_iff]
    constructor
    · rintro ⟨v, hv, hz⟩
      refine ⟨v, 0, hv, ?_⟩
      rw [predict_eq, predict_eq, Matrix.mulVec_zero]
      have := gram_pos (design X b) v
      rw [hz, dotProduct_zero] at this
      exact dotProduct_self_eq_zero.mp this.symm
    · rintro ⟨v, w, hv, hz⟩
      refine ⟨v - w, sub_ne_zero.mpr hv, ?_⟩
      rw [predict_eq, predict_eq] at hz
      rw [← Matrix.mulVec_mulVec, Matrix.mulVec_sub, hz, sub_self, Matrix.mulVec_zero]
  constructor
  · intro w hw v hv
    unfold fitLinear at hw
    simp only [Option.bind_eq_bind, Option.bind_eq_some_iff, Option.some.injEq] at hw
    obtain ⟨inv, hi, rfl⟩ := hw
    have hs := inverse_solves _ _ hi
    have hn : ((design X b)ᵀ * design X b).det ≠ 0 := by
      intro h0
      simp [inverse, h0] at hi
    have hd := objective_diff (design X b) y 0 ((inv * (design X b)ᵀ) *ᵥ y) v (by
      rw [zero_smul, add_zero, Matrix.mulVec_mulVec, ← Matrix.mul_assoc, hs, Matrix.one_mul])
    simp only [squaredError_eq, predict_eq]
    have hne : design X b *ᵥ (v - (inv * (design X b)ᵀ) *ᵥ y) ≠ 0 := by
      intro h0
      refine hn (Matrix.exists_mulVec_eq_zero_iff.mp ⟨_, sub_ne_zero.mpr hv, ?_⟩)
      rw [← Matrix.mulVec_mulVec, h0, Matrix.mulVec_zero]
    have := dot_self_pos _ hne
    linarith
  · rw [← hdet]
    unfold fitLinear inverse
    simp only [Option.bind_eq_bind]
    split <;> simp_all

/-- C56: with positive regularisation `RidgeRegression::fit` returns finite weights for every data set, the only minimiser of
the squared error of `predict` plus lambda times the squared norm of all weights, including the intercept. -/
theorem C56_ridge {n d : Nat} (lambda : ℝ) (hl : 0 < lambda) (b : Bool) (X : Matrix (Fin n) (Fin d) ℝ) (y : Fin n → ℝ) :
    ∃ w, fitRidge lambda b X y = some w ∧
      IsUniqueMinimiser (fun v => squaredError (predict X b v) y + lambda * squaredNorm v) w := by
  have hn := det_gram_ne_zero (design X b) lambda hl.le fun _ _ => Or.inr hl
  refine ⟨(((design X b)ᵀ * design X b + lambda • 1)⁻¹ * (design X b)ᵀ) *ᵥ y, ?_, fun v hv => ?_⟩
  · simp only [fitRidge, inverse, if_neg hn, Option.bind_eq_bind, Option.bind_some]
  have hd := objective_diff (design X b) y lambda ((((design X b)ᵀ * design X b + lambda • 1)⁻¹ * (design X b)ᵀ) *ᵥ y) v (by
    rw [Matrix.mulVec_mulVec, ← Matrix.mul_assoc, Matrix.mul_nonsing_inv _ (Ne.isUnit hn), Matrix.one_mul])
  simp only [squaredError_eq, squaredNorm_eq, predict_eq]
  have h1 := dot_self_nonneg (design X b *ᵥ (v - (((design X b)ᵀ * design X b + lambda • 1)⁻¹ * (design X b)ᵀ) *ᵥ y))
  have h2 := mul_pos hl (dot_self_pos _ (sub_ne_zero.mpr hv))
  linarith

/-- Two equal features, for which linear regression has no unique weights, and the penalty 1. -/
example : ∃ w, fitRidge 1 false (!![1, 1; 2, 2] : Matrix (Fin 2) (Fin 2) ℝ) ![1, 3] = some w ∧ w = ![7 / 11, 7 / 11] := by
  obtain ⟨w, hw, hmin⟩ : ∃ w : Fin 2 → ℝ, fitRidge 1 false (!![1, 1; 2, 2] : Matrix (Fin 2) (Fin 2) ℝ) ![1, 3] = some w ∧
      ∀ v : Fin 2 → ℝ, v ≠ w → squaredError ((!![1, 1; 2, 2] : Matrix (Fin 2) (Fin 2) ℝ) *ᵥ w) ![1, 3] + 1 * squaredNorm w <
        squaredError ((!![1, 1; 2, 2] : Matrix (Fin 2) (Fin 2) ℝ) *ᵥ v) ![1, 3] + 1 * squaredNorm v := C56_ridge 1 one_pos false _ _
  refine ⟨w, hw, ?_⟩
  by_contra hne
  have h := hmin ![7 / 11, 7 / 11] (Ne.symm hne)
  simp only [squaredError, squaredNorm, Matrix.mulVec, dotProduct, Fin.sum_univ_two, Matrix.of_apply, Matrix.cons_val_zero,
    Matrix.cons_val_one] at h
  nlinarith [sq_nonneg (w 0 + w 1 - 14 / 11), sq_nonneg (w 0 - w 1)]

/-- C56: without regularisation both classes return the same weights. -/
theorem C56_ridge_zero {n d : Nat} (b : Bool) (X : Matrix (Fin n) (Fin d) ℝ) (y : Fin n → ℝ) :
    fitRidge 0 b X y = fitLinear b X y := by
  simp only [fitRidge, fitLinear, zero_smul, add_zero]

/-- One feature: both classes return the mean slope. -/
example : fitRidge 0 false (!![1; 2] : Matrix (Fin 2) (Fin 1) ℝ) ![1, 3] = fitLinear false (!![1; 2] : Matrix (Fin 2) (Fin 1) ℝ) ![1, 3] ∧
    fitLinear false (!![1; 2] : Matrix (Fin 2) (Fin 1) ℝ) ![1, 3] = some ![7 / 5] := by
  refine ⟨C56_ridge_zero _ _ _, ?_⟩
  cases hf : fitLinear false (!![1; 2] : Matrix (Fin 2) (Fin 1) ℝ) ![1, 3] with
  | none =>
    obtain ⟨v, w, hv, he⟩ : ∃ v w : Fin 1 → ℝ, v ≠ w ∧ (!![1; 2] : Matrix (Fin 2) (Fin 1) ℝ) *ᵥ v = !![1; 2] *ᵥ w :=
      (C56_linear false _ _).2.mp hf
    refine absurd (funext fun j => ?_) hv
    have e0 := congrFun he 0
    simp only [Matrix.mulVec, dotProduct, Fin.sum_univ_one, Matrix.of_apply, Matrix.cons_val_zero, one_mul] at e0
    rw [Subsingleton.elim j 0]
    exact e0
  | some w =>
    have h : ∀ v : Fin 1 → ℝ, v ≠ w → squaredError ((!![1; 2] : Matrix (Fin 2) (Fin 1) ℝ) *ᵥ w) ![1, 3] <
        squaredError ((!![1; 2] : Matrix (Fin 2) (Fin 1) ℝ) *ᵥ v) ![1, 3] := (C56_linear false _ _).1 w hf
    by_contra hne
    have h1 := h ![7 / 5] fun hc => hne (congrArg some hc.symm)
    simp only [squaredError, Matrix.mulVec, dotProduct, Fin.sum_univ_two, Fin.sum_univ_one, Matrix.of_apply, Matrix.cons_val_zero,
      Matrix.cons_val_one] at h1
    nlinarith [sq_nonneg ((show Fin 1 → ℝ from w) 0 - 7 / 5)]

/-- C77: with an intercept the residuals of linear regression sum to zero, and with or without it they are orthogonal to each
feature. -/
theorem C77_residuals {n d : Nat} (b : Bool) (X : Matrix (Fin n) (Fin d) ℝ) (y : Fin n → ℝ) (w : Fin (width b d) → ℝ)
    (h : fitLinear b X y = some w) :
    (∀ j, ∑ i, (y i - predict X b w i) * X i j = 0) ∧ (b = true → ∑ i, (y i - predict X b w i) = 0) := by
  unfold fitLinear at h
  simp only [Option.bind_eq_bind, Option.bind_eq_some_iff, Option.some.injEq] at h
  obtain ⟨inv, hi, hw⟩ := h
  have hs := inverse_solves _ _ hi
  have hq : (design X b)ᵀ *ᵥ (y - predict X b w) = 0 := by
    rw [predict_eq, Matrix.mulVec_sub, ← hw, Matrix.mulVec_mulVec, Matrix.mulVec_mulVec, ← Matrix.mul_assoc,
      hs, Matrix.one_mul, sub_self]
  have hq' : ∀ j, ∑ i, design X b i j * (y i - predict X b w i) = 0 := fun j => congrFun hq j
  cases b
  · refine ⟨fun j => ?_, fun h => by cases h⟩
    rw [← hq' j]
    exact Finset.sum_congr rfl fun i _ => mul_comm _ _
  · constructor
    · intro j
      rw [← hq' (Fin.castSucc j)]
      refine Finset.sum_congr rfl fun i _ => ?_
      have h1 : design X true i (Fin.castSucc j) = X i j := Fin.snoc_castSucc (α := fun _ => ℝ) 1 (X i) j
      rw [h1, mul_comm]
    · intro _
      rw [← hq' (Fin.last d)]
      refine Finset.sum_congr rfl fun i _ => ?_
      have h1 : design X true i (Fin.last d) = 1 := Fin.snoc_last (α := fun _ => ℝ) 1 (X i)
      rw [h1, one_mul]

/-- Three samples on no common line: the weights exist. -/
example : ∃ w, fitLinear true (!![0; 1; 2] : Matrix (Fin 3) (Fin 1) ℝ) ![1, 0, 2] = some w := by
  by_contra h
  have h0 : fitLinear true (!![0; 1; 2] : Matrix (Fin 3) (Fin 1) ℝ) ![1, 0, 2] = none := by
    cases hf : fitLinear true (!![0; 1; 2] : Matrix (Fin 3) (Fin 1) ℝ) ![1, 0, 2] with
    | none => rfl
    | some w => exact absurd ⟨w, hf⟩ h
  obtain ⟨v, w, hv, he⟩ := (C56_linear true _ _).2.mp h0
  refine hv ?_
  have e0 := congrFun he 0
  have e1 := congrFun he 1
  simp [predict, Matrix.mulVec, dotProduct] at e0 e1
  funext j
  refine Fin.lastCases ?_ (fun j => ?_) j
  · exact e0
  · have : j = 0 := Subsingleton.elim _ _
    subst this
    have e2 : v (Fin.castSucc 0) + v (Fin.last 1) = w (Fin.castSucc 0) + w (Fin.last 1) := e1
    have e3 : v (Fin.last 1) = w (Fin.last 1) := e0
    linarith

/-- Two equal features: no unique weights. -/
example : fitLinear false (!![1, 1; 2, 2] : Matrix (Fin 2) (Fin 2) ℝ) ![1, 3] = none := by
  refine (C56_linear false _ _).2.mpr ⟨![1, 0], ![0, 1], fun h => ?_, ?_⟩
  · have := congrFun h 0
    simp at this
  · funext i
    fin_cases i <;> simp [predict, Matrix.mulVec, dotProduct, Fin.sum_univ_two]

end OpenML
