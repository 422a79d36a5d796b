import Verif.Props.LinearInvariance
import Mathlib.LinearAlgebra.Matrix.Trace
import Mathlib.Analysis.SpecialFunctions.Sqrt

/-!
# Statistics of linear regression: Gauss-Markov theorem, leverages, leaving one sample out, ridge as least squares (C123)
-/

namespace OpenML

open Matrix Spec LinearModel

namespace LinearStatistics

variable {n d : Nat} (b : Bool) (X : Matrix (Fin n) (Fin d) ℝ)

theorem fit_some_iff (y : Fin n → ℝ) (w : Fin (width b d) → ℝ) :
    fitLinear b X y = some w ↔
      ((design X b)ᵀ * design X b).det ≠ 0 ∧ ((design X b)ᵀ * design X b) *ᵥ w = (design X b)ᵀ *ᵥ y := by
  unfold fitLinear inverse
  simp only [Option.bind_eq_bind]
  by_cases h : ((design X b)ᵀ * design X b).det = 0
  · simp [h]
  · rw [if_neg h, Option.bind_some, Option.some.injEq]
    constructor
    · rintro rfl
      refine ⟨h, ?_⟩
      rw [mulVec_mulVec, ← Matrix.mul_assoc, Matrix.mul_nonsing_inv _ (Ne.isUnit h), Matrix.one_mul]
    · rintro ⟨-, hw⟩
      rw [← mulVec_mulVec, ← hw, mulVec_mulVec, Matrix.nonsing_inv_mul _ (Ne.isUnit h), one_mulVec]

theorem fit_none_iff (y : Fin n → ℝ) : fitLinear b X y = none ↔ ((design X b)ᵀ * design X b).det = 0 := by
  unfold fitLinear inverse
  simp only [Option.bind_eq_bind]
  by_cases h : ((design X b)ᵀ * design X b).det = 0
  · simp [h]
  · simp [h]

theorem fit_some (h : ((design X b)ᵀ * design X b).det ≠ 0) (y : Fin n → ℝ) :
    fitLinear b X y = some ((((design X b)ᵀ * design X b)⁻¹ * (design X b)ᵀ) *ᵥ y) := by
  rw [fit_some_iff]
  refine ⟨h, ?_⟩
  rw [mulVec_mulVec, ← Matrix.mul_assoc, Matrix.mul_nonsing_inv _ (Ne.isUnit h), Matrix.one_mul]

/-- The matrix of the predictions on the training data. -/
noncomputable def hat : Matrix (Fin n) (Fin n) ℝ := design X b * ((design X b)ᵀ * design X b)⁻¹ * (design X b)ᵀ

theorem gram_inv_symm {m p : Nat} (A : Matrix (Fin m) (Fin p) ℝ) : ((Aᵀ * A)⁻¹)ᵀ = (Aᵀ * A)⁻¹ := by
  rw [transpose_nonsing_inv, transpose_mul, transpose_transpose]

theorem hat_symm : (hat b X)ᵀ = hat b X := by
  unfold hat
  rw [transpose_mul, transpose_mul, transpose_transpose, gram_inv_symm, Matrix.mul_assoc]

theorem hat_idem (h : ((design X b)ᵀ * design X b).det ≠ 0) : hat b X * hat b X = hat b X := by
  unfold hat
  have h1 : ((design X b)ᵀ * design X b)⁻¹ * ((design X b)ᵀ * design X b) = 1 := Matrix.nonsing_inv_mul _ (Ne.isUnit h)
  calc design X b * ((design X b)ᵀ * design X b)⁻¹ * (design X b)ᵀ * (design X b * ((design X b)ᵀ * design X b)⁻¹ * (design X b)ᵀ)
      = design X b * (((design X b)ᵀ * design X b)⁻¹ * ((design X b)ᵀ * design X b)) * ((design X b)ᵀ * design X b)⁻¹ * (design X b)ᵀ := by
        simp only [Matrix.mul_assoc]
    _ = _ := by rw [h1, Matrix.mul_one]

theorem hat_trace (h : ((design X b)ᵀ * design X b).det ≠ 0) : (hat b X).trace = width b d := by
  unfold hat
  rw [trace_mul_comm, ← Matrix.mul_assoc, Matrix.mul_nonsing_inv _ (Ne.isUnit h), trace_one, Fintype.card_fin]

theorem predict_hat {y : Fin n → ℝ} {w : Fin (width b d) → ℝ} (hw : fitLinear b X y = some w) : predict X b w = hat b X *ᵥ y := by
  have h := ((fit_some_iff b X y w).mp hw).1
  rw [fit_some b X h, Option.some.injEq] at hw
  rw [predict_eq, ← hw, mulVec_mulVec, hat, Matrix.mul_assoc]

theorem eq_hat (H : Matrix (Fin n) (Fin n) ℝ) (hne : ((design X b)ᵀ * design X b).det ≠ 0)
    (hH : ∀ y w, fitLinear b X y = some w → predict X b w = H *ᵥ y) : H = hat b X := by
  ext i j
  have h1 := hH (Pi.single j 1) _ (fit_some b X hne _)
  rw [predict_hat b X (fit_some b X hne _)] at h1
  have := congrFun h1 i
  simp only [mulVec_single_one] at this
  exact this.symm

theorem hat_diag (h : ((design X b)ᵀ * design X b).det ≠ 0) (i : Fin n) : hat b X i i = ∑ j, hat b X i j ^ 2 := by
  conv_lhs => rw [← hat_idem b X h, mul_apply]
  refine Finset.sum_congr rfl fun j _ => ?_
  have : hat b X j i = hat b X i j := congrFun (congrFun (hat_symm b X) i) j
  rw [this, sq]

theorem design_rows {m : Nat} (g : Fin m → Fin n) : design (X.submatrix g id) b = (design X b).submatrix g id := by
  cases b <;> rfl

end LinearStatistics

open LinearStatistics

section
variable {n d : Nat} (b : Bool) (X : Matrix (Fin n) (Fin d) ℝ)

/-- C123 (Gauss-Markov): if the weights are determined by the data, the prediction of linear regression for a new sample `z` is a sum of the
targets with fixed coefficients and without bias, and any other such sum without bias has a larger variance. -/
theorem C123_gauss_markov (hfit : ∃ y, fitLinear b X y ≠ none) (z : Fin d → ℝ) :
    ∃ a : Fin n → ℝ, (∀ y, ∃ w, fitLinear b X y = some w ∧ predict (Matrix.of fun _ : Fin 1 => z) b w 0 = ∑ i, a i * y i) ∧
      UnbiasedFor (predict X b) (fun w => predict (Matrix.of fun _ : Fin 1 => z) b w 0) a ∧
      ∀ c, UnbiasedFor (predict X b) (fun w => predict (Matrix.of fun _ : Fin 1 => z) b w 0) c → c ≠ a → squaredNorm a < squaredNorm c := by
  obtain ⟨y₀, hy₀⟩ := hfit
  have h : ((design X b)ᵀ * design X b).det ≠ 0 := fun h0 => hy₀ ((fit_none_iff b X y₀).mpr h0)
  set G := (design X b)ᵀ * design X b with hG
  set u : Fin (width b d) → ℝ := design (Matrix.of fun _ : Fin 1 => z) b 0 with hu
  have hpz : ∀ w, predict (Matrix.of fun _ : Fin 1 => z) b w 0 = u ⬝ᵥ w := fun w => by rw [predict_eq]; rfl
  have hub : ∀ c, UnbiasedFor (predict X b) (fun w => predict (Matrix.of fun _ : Fin 1 => z) b w 0) c ↔ (design X b)ᵀ *ᵥ c = u := by
    intro c
    have h1 : ∀ w, ∑ i, c i * predict X b w i = ((design X b)ᵀ *ᵥ c) ⬝ᵥ w := by
      intro w
      rw [predict_eq, mulVec_transpose, ← dotProduct_mulVec]
      rfl
    unfold UnbiasedFor
    simp only [h1, hpz]
    refine ⟨fun h => ?_, fun h w => by rw [h]⟩
    funext j
    have := h (Pi.single j 1)
    simpa using this
  have ha : (design X b)ᵀ *ᵥ (design X b *ᵥ (G⁻¹ *ᵥ u)) = u := by
    rw [mulVec_mulVec, ← hG, mulVec_mulVec, Matrix.mul_nonsing_inv _ (Ne.isUnit h), one_mulVec]
  refine ⟨design X b *ᵥ (G⁻¹ *ᵥ u), fun y => ⟨_, fit_some b X h y, ?_⟩, (hub _).mpr ha, fun c hc hne => ?_⟩
  · rw [hpz]
    have h1 : ∑ i, (design X b *ᵥ (G⁻¹ *ᵥ u)) i * y i = (design X b *ᵥ (G⁻¹ *ᵥ u)) ⬝ᵥ y := rfl
    rw [h1, mulVec_mulVec, dotProduct_mulVec, ← mulVec_transpose, transpose_mul, transpose_nonsing_inv, hG, transpose_mul,
      transpose_transpose, ← hG, dotProduct_comm]
  · rw [hub] at hc
    have h0 : (design X b)ᵀ *ᵥ (c - design X b *ᵥ (G⁻¹ *ᵥ u)) = 0 := by rw [mulVec_sub, hc, ha, sub_self]
    have h1 : (design X b *ᵥ (G⁻¹ *ᵥ u)) ⬝ᵥ (c - design X b *ᵥ (G⁻¹ *ᵥ u)) = 0 := by
      rw [dotProduct_comm, dotProduct_mulVec, ← mulVec_transpose, h0, zero_dotProduct]
    have h2 := dot_self_pos _ (sub_ne_zero.mpr hne)
    rw [squaredNorm_eq, squaredNorm_eq]
    have h3 : c ⬝ᵥ c = (design X b *ᵥ (G⁻¹ *ᵥ u)) ⬝ᵥ (design X b *ᵥ (G⁻¹ *ᵥ u)) +
        2 * ((design X b *ᵥ (G⁻¹ *ᵥ u)) ⬝ᵥ (c - design X b *ᵥ (G⁻¹ *ᵥ u))) +
        (c - design X b *ᵥ (G⁻¹ *ᵥ u)) ⬝ᵥ (c - design X b *ᵥ (G⁻¹ *ᵥ u)) := by
      generalize design X b *ᵥ (G⁻¹ *ᵥ u) = a
      simp only [dotProduct_sub, sub_dotProduct]
      rw [dotProduct_comm c a]
      ring
    rw [h3, h1]
    linarith

/-- C123: the predictions on the training data are the targets times a symmetric idempotent matrix, whose diagonal entries (the leverages) are
between zero and one and add up to the number of weights. -/
theorem C123_leverages (hfit : ∃ y, fitLinear b X y ≠ none) :
    ∃ H : Matrix (Fin n) (Fin n) ℝ, (∀ y, ∃ w, fitLinear b X y = some w ∧ predict X b w = H *ᵥ y) ∧ Hᵀ = H ∧ H * H = H ∧
      (∀ i, 0 ≤ H i i ∧ H i i ≤ 1) ∧ ∑ i, H i i = width b d := by
  obtain ⟨y₀, hy₀⟩ := hfit
  have h : ((design X b)ᵀ * design X b).det ≠ 0 := fun h0 => hy₀ ((fit_none_iff b X y₀).mpr h0)
  refine ⟨hat b X, fun y => ⟨_, fit_some b X h y, predict_hat b X (fit_some b X h y)⟩, hat_symm b X, hat_idem b X h, fun i => ?_,
    hat_trace b X h⟩
  have h1 := hat_diag b X h i
  have h2 : hat b X i i ^ 2 ≤ ∑ j, hat b X i j ^ 2 := Finset.single_le_sum (f := fun j => hat b X i j ^ 2) (fun j _ => sq_nonneg _) (Finset.mem_univ i)
  rw [← h1] at h2
  have h0 : 0 ≤ hat b X i i := by rw [h1]; exact Finset.sum_nonneg fun j _ => sq_nonneg _
  exact ⟨h0, by nlinarith⟩

/-- C123: leaving out sample `i`. Let the matrix `H` give the predictions on all training data. Fitting the other samples succeeds exactly if
the leverage of sample `i` is not one, and then the error of their model at sample `i` is the residual of the model of all samples divided by
one minus the leverage. -/
theorem C123_leave_one_out {n d : Nat} (b : Bool) (X : Matrix (Fin (n + 1)) (Fin d) ℝ) (y : Fin (n + 1) → ℝ) (w : Fin (width b d) → ℝ)
    (hw : fitLinear b X y = some w) (H : Matrix (Fin (n + 1)) (Fin (n + 1)) ℝ)
    (hH : ∀ y w, fitLinear b X y = some w → predict X b w = H *ᵥ y) (i : Fin (n + 1)) :
    (fitLinear b (X.submatrix i.succAbove id) (fun j => y (i.succAbove j)) = none ↔ H i i = 1) ∧
    ∀ w', fitLinear b (X.submatrix i.succAbove id) (fun j => y (i.succAbove j)) = some w' →
      y i - predict X b w' i = (y i - predict X b w i) / (1 - H i i) := by
  have h := ((fit_some_iff b X y w).mp hw).1
  have hHat := eq_hat b X H h hH
  subst hHat
  set D := design X b with hD
  have hone : fitLinear b (X.submatrix i.succAbove id) (fun j => y (i.succAbove j)) = none ↔ hat b X i i = 1 := by
    rw [fit_none_iff, design_rows, ← Matrix.exists_mulVec_eq_zero_iff]
    constructor
    · rintro ⟨v, hv, hz⟩
      have h1 : (D.submatrix i.succAbove id) *ᵥ v = 0 := by
        have := gram_pos (D.submatrix i.succAbove id) v
        rw [hz, dotProduct_zero] at this
        exact dotProduct_self_eq_zero.mp this.symm
      have h2 : ∀ j, (D *ᵥ v) (i.succAbove j) = 0 := fun j => congrFun h1 j
      have h3 : D *ᵥ v = (D *ᵥ v) i • Pi.single i 1 := by
        funext q
        rcases Fin.eq_self_or_eq_succAbove i q with rfl | ⟨j, rfl⟩
        · simp
        · rw [h2 j]
          simp [Fin.succAbove_ne]
      have h4 : (D *ᵥ v) i ≠ 0 := by
        intro h0
        rw [h0, zero_smul] at h3
        refine h (Matrix.exists_mulVec_eq_zero_iff.mp ⟨v, hv, ?_⟩)
        rw [← mulVec_mulVec, h3, mulVec_zero]
      have h5 : hat b X *ᵥ (D *ᵥ v) = D *ᵥ v := by
        unfold hat
        rw [mulVec_mulVec, Matrix.mul_assoc, Matrix.mul_assoc, Matrix.nonsing_inv_mul _ (Ne.isUnit h), Matrix.mul_one]
      rw [h3, mulVec_smul, mulVec_single_one] at h5
      have h6 := congrFun h5 i
      simp only [Pi.smul_apply, smul_eq_mul, Pi.single_eq_same, mul_one] at h6
      exact mul_left_cancel₀ h4 (h6.trans (mul_one _).symm)
    · intro h1
      have hd := hat_diag b X h i
      rw [Fin.sum_univ_succAbove _ i, h1, one_pow] at hd
      have h2 : ∀ j, hat b X i (i.succAbove j) = 0 := by
        intro j
        have h3 : ∑ j, hat b X i (i.succAbove j) ^ 2 = 0 := by linarith
        have := (Finset.sum_eq_zero_iff_of_nonneg fun j _ => sq_nonneg _).mp h3 j (Finset.mem_univ j)
        exact pow_eq_zero_iff two_ne_zero |>.mp this
      refine ⟨((Dᵀ * D)⁻¹ * Dᵀ) *ᵥ Pi.single i 1, fun h0 => ?_, ?_⟩
      · have h3 : (hat b X *ᵥ Pi.single i 1) i = 0 := by
          have : hat b X *ᵥ Pi.single i 1 = D *ᵥ (((Dᵀ * D)⁻¹ * Dᵀ) *ᵥ Pi.single i 1) := by
            rw [mulVec_mulVec, ← Matrix.mul_assoc]; rfl
          rw [this, h0, mulVec_zero]
          rfl
        rw [mulVec_single_one] at h3
        exact one_ne_zero (h1.symm.trans h3)
      · rw [← mulVec_mulVec]
        have h3 : (D.submatrix i.succAbove id) *ᵥ (((Dᵀ * D)⁻¹ * Dᵀ) *ᵥ Pi.single i 1) = 0 := by
          funext j
          have h4 : ((D.submatrix i.succAbove id) *ᵥ (((Dᵀ * D)⁻¹ * Dᵀ) *ᵥ Pi.single i 1)) j = (hat b X *ᵥ Pi.single i 1) (i.succAbove j) := by
            have : hat b X *ᵥ Pi.single i 1 = D *ᵥ (((Dᵀ * D)⁻¹ * Dᵀ) *ᵥ Pi.single i 1) := by
              rw [mulVec_mulVec, ← Matrix.mul_assoc]; rfl
            rw [this]
            rfl
          rw [h4, mulVec_single_one]
          have h5 : hat b X (i.succAbove j) i = hat b X i (i.succAbove j) := congrFun (congrFun (hat_symm b X) i) (i.succAbove j)
          exact h5.trans (h2 j)
        rw [h3, mulVec_zero]
  refine ⟨hone, fun w' hw' => ?_⟩
  have hne : 1 - hat b X i i ≠ 0 := by
    intro h0
    have : hat b X i i = 1 := by linarith
    rw [hone.mpr this] at hw'
    cases hw'
  have hq := ((fit_some_iff b _ _ w').mp hw').2
  rw [design_rows] at hq
  -- the model of the other samples is the model of all samples with target `i` replaced by its prediction
  set y' : Fin (n + 1) → ℝ := Function.update y i (predict X b w' i) with hy'
  have hfull : fitLinear b X y' = some w' := by
    rw [fit_some_iff]
    refine ⟨h, ?_⟩
    rw [← mulVec_mulVec] at hq ⊢
    funext k
    have hk := congrFun hq k
    simp only [mulVec, dotProduct, transpose_apply, submatrix_apply, id_eq] at hk ⊢
    rw [Fin.sum_univ_succAbove _ i, Fin.sum_univ_succAbove _ i, hk]
    congr 1
    · rw [hy', Function.update_self, predict_eq]
      rfl
    · refine Finset.sum_congr rfl fun j _ => ?_
      rw [hy', Function.update_of_ne (Fin.succAbove_ne i j)]
  have h1 := congrFun (predict_hat b X hfull) i
  have h2 := congrFun (predict_hat b X hw) i
  have h3 : y' = y + (predict X b w' i - y i) • Pi.single i 1 := by
    funext q
    by_cases hqi : q = i
    · subst hqi
      simp [hy']
    · simp [hy', hqi]
  rw [h3, mulVec_add, mulVec_smul, mulVec_single_one, Pi.add_apply, ← h2] at h1
  simp only [Pi.smul_apply, smul_eq_mul] at h1
  rw [eq_div_iff hne]
  have h4 : (hat b X).col i i = hat b X i i := rfl
  rw [h4] at h1
  linarith

end

/-- C123: ridge regression without intercept is linear regression without intercept on the data extended by one sample for each feature, with
target zero, whose only entry is the square root of the regularisation. -/
theorem C123_ridge_rows {n d : Nat} (lambda : ℝ) (hl : 0 < lambda) (X : Matrix (Fin n) (Fin d) ℝ) (y : Fin n → ℝ) :
    fitRidge lambda false X y = fitLinear false
      (Matrix.of (Fin.append (fun i j => X i j) fun k j => if j = k then Real.sqrt lambda else 0) : Matrix (Fin (n + d)) (Fin d) ℝ)
      (Fin.append y fun _ : Fin d => 0) := by
  set A : Matrix (Fin (n + d)) (Fin d) ℝ := Matrix.of (Fin.append (fun i j => X i j) fun k j => if j = k then Real.sqrt lambda else 0) with hA
  have h1 : Aᵀ * A = Xᵀ * X + lambda • 1 := by
    ext i j
    rw [mul_apply, Fin.sum_univ_add, Matrix.add_apply, mul_apply]
    simp only [hA, transpose_apply, of_apply, Fin.append_left, Fin.append_right, Matrix.smul_apply, smul_eq_mul]
    congr 1
    rw [Finset.sum_eq_single i]
    · rw [if_pos rfl, one_apply]
      by_cases hij : i = j
      · rw [if_pos hij.symm, if_pos hij, Real.mul_self_sqrt hl.le, mul_one]
      · rw [if_neg (Ne.symm hij), if_neg hij]
        simp
    · intro q _ hq
      rw [if_neg (Ne.symm hq), zero_mul]
    · simp
  have h2 : ∀ M : Matrix (Fin d) (Fin d) ℝ, (M * Aᵀ) *ᵥ (Fin.append y fun _ : Fin d => 0) = (M * Xᵀ) *ᵥ y := by
    intro M
    rw [← mulVec_mulVec, ← mulVec_mulVec]
    congr 1
    funext j
    simp only [mulVec, dotProduct, Fin.sum_univ_add, hA, transpose_apply, of_apply, Fin.append_left, Fin.append_right, mul_zero,
      Finset.sum_const_zero, add_zero]
  have h3 : fitRidge lambda false X y = (inverse (Xᵀ * X + lambda • (1 : Matrix (Fin d) (Fin d) ℝ))).bind fun inv => some ((inv * Xᵀ) *ᵥ y) := rfl
  have h4 : fitLinear false A (Fin.append y fun _ : Fin d => 0) =
      (inverse (Aᵀ * A)).bind fun inv => some ((inv * Aᵀ) *ᵥ (Fin.append y fun _ : Fin d => 0)) := rfl
  rw [h3, h4, h1]
  congr 1
  funext inv
  rw [h2]

/-- The hypotheses of the statements of C123 hold for three samples with one feature and an intercept: the fit succeeds for all targets. -/
example : ∃ y, fitLinear true (!![0; 1; 2] : Matrix (Fin 3) (Fin 1) ℝ) y ≠ none := by
  refine ⟨0, fun h => ?_⟩
  rw [fit_none_iff, ← Matrix.exists_mulVec_eq_zero_iff] at h
  obtain ⟨v, hv, hz⟩ := h
  have h1 := gram_pos (design (!![0; 1; 2] : Matrix (Fin 3) (Fin 1) ℝ) true) v
  rw [hz, dotProduct_zero] at h1
  have h2 := dotProduct_self_eq_zero.mp h1.symm
  rw [← predict_eq] at h2
  have e0 := congrFun h2 0
  have e1 := congrFun h2 1
  simp [predict, mulVec, dotProduct] at e0 e1
  refine hv ?_
  funext j
  replace hv : (show Fin 2 → ℝ from v) ≠ 0 := hv
  have k1 : (show Fin 2 → ℝ from v) 1 = 0 := e0
  have k0 : (show Fin 2 → ℝ from v) 0 = 0 := by
    have : (show Fin 2 → ℝ from v) 0 + (show Fin 2 → ℝ from v) 1 = 0 := e1
    linarith
  revert j
  show ∀ j : Fin 2, (show Fin 2 → ℝ from v) j = 0
  intro j
  fin_cases j
  · exact k0
  · exact k1

end OpenML
