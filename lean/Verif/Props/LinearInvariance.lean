import Verif.Props.LinearModel
import Mathlib.LinearAlgebra.UnitaryGroup

/-!
# Regularisation path and invariances of linear and ridge regression (C102, C103)
-/

namespace OpenML

open Matrix Spec LinearModel

section C102

/-- C102: a larger regularisation never gives longer weights and never a smaller training error; both are strict unless the weights
are the same. -/
theorem C102_path {n d : Nat} (lambda mu : ℝ) (hl : 0 < lambda) (hm : lambda < mu) (b : Bool) (X : Matrix (Fin n) (Fin d) ℝ)
    (y : Fin n → ℝ) : ∃ v w, fitRidge lambda b X y = some v ∧ fitRidge mu b X y = some w ∧
      (v = w ∨ (squaredNorm w < squaredNorm v ∧ squaredError (predict X b v) y < squaredError (predict X b w) y)) := by
  obtain ⟨v, hv, hvm⟩ := C56_ridge lambda hl b X y
  obtain ⟨w, hw, hwm⟩ := C56_ridge mu (hl.trans hm) b X y
  refine ⟨v, w, hv, hw, ?_⟩
  by_cases hvw : v = w
  · exact Or.inl hvw
  · have h1 := hvm w (Ne.symm hvw)
    have h2 := hwm v hvw
    dsimp only at h1 h2
    have h3 : squaredNorm w < squaredNorm v := by nlinarith
    exact Or.inr ⟨h3, by nlinarith⟩

/-- C102: the squared length of the weights is at most the sum of squared targets divided by the regularisation, so that the weights
vanish as the regularisation grows. -/
theorem C102_bound {n d : Nat} (lambda : ℝ) (hl : 0 < lambda) (b : Bool) (X : Matrix (Fin n) (Fin d) ℝ) (y : Fin n → ℝ)
    (w : Fin (width b d) → ℝ) (hw : fitRidge lambda b X y = some w) : squaredNorm w ≤ (∑ i, y i ^ 2) / lambda := by
  obtain ⟨v, hv, hvm⟩ := C56_ridge lambda hl b X y
  rw [hw] at hv
  obtain rfl := Option.some.inj hv
  rw [le_div_iff₀ hl]
  have hzero : squaredError (predict X b 0) y = ∑ i, y i ^ 2 := by
    rw [predict_eq, Matrix.mulVec_zero]
    simp [squaredError]
  have herr : 0 ≤ squaredError (predict X b w) y := Finset.sum_nonneg fun i _ => sq_nonneg _
  by_cases h0 : w = 0
  · subst h0
    have : squaredNorm (0 : Fin (width b d) → ℝ) = 0 := by simp [squaredNorm]
    rw [this, zero_mul]
    exact Finset.sum_nonneg fun i _ => sq_nonneg _
  · have h1 := hvm 0 (Ne.symm h0)
    dsimp only at h1
    have : squaredNorm (0 : Fin (width b d) → ℝ) = 0 := by simp [squaredNorm]
    rw [hzero, this] at h1
    linarith

/-- C102: if ordinary least squares has a solution, ridge weights are never longer, and the training error exceeds the least one by
at most the regularisation times the squared length of that solution. -/
theorem C102_least_squares {n d : Nat} (lambda : ℝ) (hl : 0 < lambda) (b : Bool) (X : Matrix (Fin n) (Fin d) ℝ) (y : Fin n → ℝ)
    (v w : Fin (width b d) → ℝ) (hv : fitLinear b X y = some v) (hw : fitRidge lambda b X y = some w) :
    squaredNorm w ≤ squaredNorm v ∧ squaredError (predict X b v) y ≤ squaredError (predict X b w) y ∧
    squaredError (predict X b w) y ≤ squaredError (predict X b v) y + lambda * squaredNorm v := by
  have hvm := (C56_linear b X y).1 v hv
  obtain ⟨w', hw', hwm⟩ := C56_ridge lambda hl b X y
  rw [hw] at hw'
  obtain rfl := Option.some.inj hw'
  have hn : 0 ≤ squaredNorm w := Finset.sum_nonneg fun i _ => sq_nonneg _
  have hn' : 0 ≤ squaredNorm v := Finset.sum_nonneg fun i _ => sq_nonneg _
  by_cases h : w = v
  · subst h
    exact ⟨le_refl _, le_refl _, by nlinarith⟩
  · have h1 := hvm w h
    have h2 := hwm v (Ne.symm h)
    dsimp only at h1 h2
    refine ⟨?_, h1.le, by nlinarith⟩
    by_contra hlt
    nlinarith [not_le.mp hlt]

/-- Example for C102: one feature, two samples; the weights for regularisation 1 and 3 are 10/6 and 10/8. -/
example : fitRidge 1 false !![1; 2] ![2, 4] = some ![10 / 6] ∧ fitRidge 3 false !![1; 2] ![2, 4] = some ![10 / 8] := by
  have key : ∀ l : ℝ, 0 < l → fitRidge l false !![1; 2] ![2, 4] = some ![10 / (5 + l)] := by
    intro l hl
    obtain ⟨w, hw, hm⟩ := C56_ridge l hl false !![1; 2] ![2, 4]
    rw [hw]
    by_contra hne
    have h1 := hm ![10 / (5 + l)] (fun h => hne (congrArg some h.symm))
    have h0 : 5 + l ≠ 0 := by positivity
    have hobj : ∀ v : Fin 1 → ℝ, squaredError (predict !![1; 2] false v) ![2, 4] + l * squaredNorm v =
        (5 + l) * (v 0) ^ 2 - 20 * v 0 + 20 := by
      intro v
      simp [squaredError, squaredNorm, predict, Matrix.mulVec, dotProduct, Fin.sum_univ_succ]
      ring
    have h2 := hobj w
    have h3 := hobj ![10 / (5 + l)]
    replace h1 : (5 + l) * (show Fin 1 → ℝ from w) 0 ^ 2 - 20 * (show Fin 1 → ℝ from w) 0 + 20 < _ := (h2.symm.trans_lt h1).trans_eq h3
    have h4 : (5 + l) * (![10 / (5 + l)] 0 : ℝ) ^ 2 - 20 * (![10 / (5 + l)] 0 : ℝ) + 20 = 20 - 100 / (5 + l) := by
      simp only [Matrix.cons_val_zero]
      field_simp
      ring
    rw [h4] at h1
    generalize (show Fin 1 → ℝ from w) 0 = t at h1
    have h5 : (5 + l) * t ^ 2 - 20 * t + 20 = (5 + l) * (t - 10 / (5 + l)) ^ 2 + (20 - 100 / (5 + l)) := by
      field_simp
      ring
    have h6 : 0 ≤ (5 + l) * (t - 10 / (5 + l)) ^ 2 := by positivity
    linarith
  refine ⟨?_, ?_⟩
  · exact (key 1 (by norm_num)).trans (congrArg (fun t : ℝ => some ![t]) (by norm_num))
  · exact (key 3 (by norm_num)).trans (congrArg (fun t : ℝ => some ![t]) (by norm_num))

end C102

section C103

theorem moveFeatures_back {m d : Nat} (A : Matrix (Fin d) (Fin d) ℝ) (hA : A.det ≠ 0) (c : Fin d → ℝ) (Z : Matrix (Fin m) (Fin d) ℝ) :
    moveFeatures A⁻¹ (-(c ᵥ* A⁻¹)) (moveFeatures A c Z) = Z := by
  unfold moveFeatures
  rw [Matrix.add_mul, Matrix.mul_assoc, Matrix.mul_nonsing_inv _ (Ne.isUnit hA), Matrix.mul_one]
  have : (Matrix.of fun _ : Fin m => c) * A⁻¹ = Matrix.of fun _ => c ᵥ* A⁻¹ := by
    ext i j
    rfl
  rw [this, add_assoc]
  ext i j
  simp

theorem moved_weights {d : Nat} (b : Bool) (A : Matrix (Fin d) (Fin d) ℝ) (hA : A.det ≠ 0) (c : Fin d → ℝ) (hc : b = false → c = 0)
    (w : Fin (width b d) → ℝ) :
    ∃ w' : Fin (width b d) → ℝ, (∀ m (Z : Matrix (Fin m) (Fin d) ℝ), predict (moveFeatures A c Z) b w' = predict Z b w) ∧
      (A * Aᵀ = 1 → c = 0 → squaredNorm w' = squaredNorm w) := by
  have hinv : ∀ u : Fin d → ℝ, A *ᵥ (A⁻¹ *ᵥ u) = u := fun u => by
    rw [Matrix.mulVec_mulVec, Matrix.mul_nonsing_inv _ (Ne.isUnit hA), Matrix.one_mulVec]
  have hnorm : A * Aᵀ = 1 → ∀ u : Fin d → ℝ, (A⁻¹ *ᵥ u) ⬝ᵥ (A⁻¹ *ᵥ u) = u ⬝ᵥ u := by
    intro ho u
    have : A⁻¹ = Aᵀ := Matrix.inv_eq_right_inv ho
    rw [this, Matrix.dotProduct_mulVec, Matrix.vecMul_transpose, Matrix.mulVec_mulVec, ho, Matrix.one_mulVec]
  cases b
  · refine ⟨(show Fin d → ℝ from A⁻¹ *ᵥ (show Fin d → ℝ from w)), fun m Z => ?_, fun ho _ => ?_⟩
    · rw [hc rfl]
      show moveFeatures A 0 Z *ᵥ (A⁻¹ *ᵥ (show Fin d → ℝ from w)) = Z *ᵥ (show Fin d → ℝ from w)
      have h0 : moveFeatures A 0 Z = Z * A := by
        ext i j
        simp [moveFeatures]
      rw [h0, ← Matrix.mulVec_mulVec, hinv]
    · exact (squaredNorm_eq _).trans ((hnorm ho (show Fin d → ℝ from w)).trans (squaredNorm_eq _).symm)
  · have hw : ∀ w : Fin (d + 1) → ℝ, squaredNorm w = (fun j : Fin d => w (Fin.castSucc j)) ⬝ᵥ (fun j : Fin d => w (Fin.castSucc j)) +
        w (Fin.last d) ^ 2 := by
      intro w
      rw [squaredNorm, Fin.sum_univ_castSucc]
      simp [dotProduct, pow_two]
    refine ⟨(Fin.snoc (α := fun _ => ℝ) (A⁻¹ *ᵥ fun j : Fin d => w (Fin.castSucc j))
      (w (Fin.last d) - c ⬝ᵥ (A⁻¹ *ᵥ fun j : Fin d => w (Fin.castSucc j))) : Fin (d + 1) → ℝ), fun m Z => ?_, fun ho hc0 => ?_⟩
    · funext i
      simp only [predict, Fin.snoc_castSucc, Fin.snoc_last]
      have h1 : (moveFeatures A c Z *ᵥ (A⁻¹ *ᵥ fun j : Fin d => w (Fin.castSucc j))) i =
          (Z *ᵥ fun j : Fin d => w (Fin.castSucc j)) i + c ⬝ᵥ (A⁻¹ *ᵥ fun j : Fin d => w (Fin.castSucc j)) := by
        rw [moveFeatures, Matrix.add_mulVec, ← Matrix.mulVec_mulVec, hinv]
        rfl
      rw [h1]
      ring
    · rw [show squaredNorm w = _ from hw w]
      refine (hw _).trans ?_
      simp only [Fin.snoc_castSucc, Fin.snoc_last, hc0, zero_dotProduct, sub_zero]
      rw [show (fun j : Fin d => (A⁻¹ *ᵥ fun j : Fin d => w (Fin.castSucc j)) j) = A⁻¹ *ᵥ fun j : Fin d => w (Fin.castSucc j) from rfl,
        hnorm ho]

theorem predict_injective {d : Nat} (b : Bool) (v w : Fin (width b d) → ℝ)
    (h : ∀ m (Z : Matrix (Fin m) (Fin d) ℝ), predict Z b v = predict Z b w) : v = w := by
  cases b
  · have h1 : (1 : Matrix (Fin d) (Fin d) ℝ) *ᵥ (show Fin d → ℝ from v) = 1 *ᵥ (show Fin d → ℝ from w) := h d 1
    rw [Matrix.one_mulVec, Matrix.one_mulVec] at h1
    exact h1
  · have h0 := congrFun (h 1 0) 0
    have h1 := h d 1
    simp only [predict, Matrix.zero_mulVec, Pi.zero_apply, zero_add, Matrix.one_mulVec] at h0 h1
    funext j
    refine Fin.lastCases ?_ (fun j => ?_) j
    · exact h0
    · have := congrFun h1 j
      rw [h0] at this
      exact add_right_cancel this

/-- C103: an invertible linear map of the features, with intercept also a shift of each feature, does not change the predictions of
linear regression, neither for the training samples nor for others. -/
theorem C103_features {n d : Nat} (b : Bool) (A : Matrix (Fin d) (Fin d) ℝ) (hA : A.det ≠ 0) (c : Fin d → ℝ) (hc : b = false → c = 0)
    (X : Matrix (Fin n) (Fin d) ℝ) (y : Fin n → ℝ) (w : Fin (width b d) → ℝ) (h : fitLinear b X y = some w) :
    ∃ w', fitLinear b (moveFeatures A c X) y = some w' ∧
      ∀ m (Z : Matrix (Fin m) (Fin d) ℝ), predict (moveFeatures A c Z) b w' = predict Z b w := by
  have hA' : (A⁻¹).det ≠ 0 := by rw [Matrix.det_nonsing_inv, Ring.inverse_eq_inv']; exact inv_ne_zero hA
  have hback : ∀ w' : Fin (width b d) → ℝ, ∃ w : Fin (width b d) → ℝ, ∀ m (Z : Matrix (Fin m) (Fin d) ℝ),
      predict Z b w = predict (moveFeatures A c Z) b w' := by
    intro w'
    obtain ⟨v, hv, _⟩ := moved_weights b A⁻¹ hA' (-(c ᵥ* A⁻¹)) (fun hb => by simp [hc hb]) w'
    refine ⟨v, fun m Z => ?_⟩
    rw [← hv m (moveFeatures A c Z), moveFeatures_back A hA]
  have hforth := moved_weights b A hA c hc
  obtain ⟨w₁, hw₁, _⟩ := hforth w
  have hmin := (C56_linear b X y).1 w h
  cases hf : fitLinear b (moveFeatures A c X) y with
  | none =>
    exfalso
    obtain ⟨v', u', hne, he⟩ := (C56_linear b _ y).2.mp hf
    obtain ⟨v, hv⟩ := hback v'
    obtain ⟨u, hu⟩ := hback u'
    have hvu : v ≠ u := by
      rintro rfl
      refine hne (predict_injective b v' u' fun m Z => ?_)
      have hZ : moveFeatures A c (moveFeatures A⁻¹ (-(c ᵥ* A⁻¹)) Z) = Z := by
        have := moveFeatures_back A⁻¹ hA' (-(c ᵥ* A⁻¹)) Z
        rw [Matrix.nonsing_inv_nonsing_inv _ (Ne.isUnit hA)] at this
        rw [Matrix.neg_vecMul, neg_neg, Matrix.vecMul_vecMul, Matrix.nonsing_inv_mul _ (Ne.isUnit hA), Matrix.vecMul_one] at this
        exact this
      rw [← hZ, ← hv, ← hu]
    have := (C56_linear b X y).2.mpr ⟨v, u, hvu, by rw [hv, hu, he]⟩
    rw [h] at this
    cases this
  | some w' =>
    refine ⟨w', rfl, ?_⟩
    have hmin' := (C56_linear b _ y).1 w' hf
    have hww : w' = w₁ := by
      by_contra hne
      have h1 := hmin' w₁ (Ne.symm hne)
      obtain ⟨u, hu⟩ := hback w'
      dsimp only at h1
      rw [hw₁ n X, ← hu n X] at h1
      by_cases huw : u = w
      · rw [huw] at h1
        exact lt_irrefl _ h1
      · exact lt_asymm h1 (hmin u huw)
    rw [hww]
    exact hw₁

/-- C103: for ridge regression this holds for orthogonal maps (rotations and reflections of the feature space). -/
theorem C103_rotations {n d : Nat} (lambda : ℝ) (hl : 0 < lambda) (b : Bool) (A : Matrix (Fin d) (Fin d) ℝ) (ho : A * Aᵀ = 1)
    (X : Matrix (Fin n) (Fin d) ℝ) (y : Fin n → ℝ) :
    ∃ w w', fitRidge lambda b X y = some w ∧ fitRidge lambda b (X * A) y = some w' ∧ squaredNorm w' = squaredNorm w ∧
      ∀ m (Z : Matrix (Fin m) (Fin d) ℝ), predict (Z * A) b w' = predict Z b w := by
  have hA : A.det ≠ 0 := by
    intro h0
    have := congrArg Matrix.det ho
    rw [Matrix.det_mul, h0, zero_mul, Matrix.det_one] at this
    exact zero_ne_one this
  have hmove : ∀ (B : Matrix (Fin d) (Fin d) ℝ) m (Z : Matrix (Fin m) (Fin d) ℝ), moveFeatures B 0 Z = Z * B := by
    intro B m Z
    ext i j
    simp [moveFeatures]
  have hinv : A⁻¹ = Aᵀ := Matrix.inv_eq_right_inv ho
  have ho' : Aᵀ * A = 1 := by rw [← hinv]; exact Matrix.nonsing_inv_mul _ (Ne.isUnit hA)
  obtain ⟨w, hw, hmin⟩ := C56_ridge lambda hl b X y
  obtain ⟨w', hw', hmin'⟩ := C56_ridge lambda hl b (X * A) y
  obtain ⟨w₁, hw₁, hn₁⟩ := moved_weights b A hA 0 (fun _ => rfl) w
  obtain ⟨u, hu, hn⟩ := moved_weights b Aᵀ (by rw [Matrix.det_transpose]; exact hA) 0 (fun _ => rfl) w'
  have hn₁ := hn₁ ho rfl
  have hn := hn (by rw [Matrix.transpose_transpose]; exact ho') rfl
  have hww : w' = w₁ := by
    by_contra hne
    have h1 := hmin' w₁ (Ne.symm hne)
    dsimp only at h1
    have e1 : predict (X * A) b w₁ = predict X b w := by rw [← hmove, hw₁]
    have e2 : predict X b u = predict (X * A) b w' := by
      rw [← hu n (X * A), hmove, Matrix.mul_assoc, ho, Matrix.mul_one]
    rw [e1, hn₁, ← e2, ← hn] at h1
    by_cases huw : u = w
    · rw [huw] at h1
      exact lt_irrefl _ h1
    · exact lt_asymm h1 (hmin u huw)
  refine ⟨w, w', hw, hw', by rw [hww, hn₁], fun m Z => ?_⟩
  rw [hww, ← hmove, hw₁]

/-- C103: the order of the samples does not matter. -/
theorem C103_order {n d : Nat} (lambda : ℝ) (b : Bool) (X : Matrix (Fin n) (Fin d) ℝ) (y : Fin n → ℝ) (σ : Equiv.Perm (Fin n)) :
    fitLinear b (X.submatrix σ id) (y ∘ σ) = fitLinear b X y ∧
    fitRidge lambda b (X.submatrix σ id) (y ∘ σ) = fitRidge lambda b X y := by
  have hd : design (X.submatrix σ id) b = (design X b).submatrix σ id := by
    cases b
    · rfl
    · ext i j
      rfl
  have hg : (design (X.submatrix σ id) b)ᵀ * design (X.submatrix σ id) b = (design X b)ᵀ * design X b := by
    rw [hd, Matrix.transpose_submatrix, Matrix.submatrix_mul_equiv]
    rfl
  have hv : ∀ inv : Matrix (Fin (width b d)) (Fin (width b d)) ℝ,
      (inv * (design (X.submatrix σ id) b)ᵀ) *ᵥ (y ∘ σ) = (inv * (design X b)ᵀ) *ᵥ y := by
    intro inv
    rw [hd, Matrix.transpose_submatrix, ← Matrix.mulVec_mulVec, ← Matrix.mulVec_mulVec, Matrix.submatrix_mulVec_equiv]
    congr 1
    funext j
    simp [Function.comp_def]
  constructor
  · simp only [fitLinear, hg, hv]
  · simp only [fitRidge, hg, hv]

/-- C103: the weights depend linearly on the targets. -/
theorem C103_targets {n d : Nat} (lambda : ℝ) (b : Bool) (X : Matrix (Fin n) (Fin d) ℝ) (y z : Fin n → ℝ) (s t : ℝ)
    (v w : Fin (width b d) → ℝ) :
    (fitLinear b X y = some v → fitLinear b X z = some w → fitLinear b X (s • y + t • z) = some (s • v + t • w)) ∧
    (fitRidge lambda b X y = some v → fitRidge lambda b X z = some w →
      fitRidge lambda b X (s • y + t • z) = some (s • v + t • w)) := by
  constructor
  · intro h1 h2
    simp only [fitLinear, Option.bind_eq_bind, Option.bind_eq_some_iff, Option.some.injEq] at h1 h2 ⊢
    obtain ⟨inv, hi, rfl⟩ := h1
    obtain ⟨inv', hi', rfl⟩ := h2
    rw [hi] at hi'
    obtain rfl := Option.some.inj hi'
    exact ⟨inv, hi, by rw [Matrix.mulVec_add, Matrix.mulVec_smul, Matrix.mulVec_smul]⟩
  · intro h1 h2
    simp only [fitRidge, Option.bind_eq_bind, Option.bind_eq_some_iff, Option.some.injEq] at h1 h2 ⊢
    obtain ⟨inv, hi, rfl⟩ := h1
    obtain ⟨inv', hi', rfl⟩ := h2
    rw [hi] at hi'
    obtain rfl := Option.some.inj hi'
    exact ⟨inv, hi, by rw [Matrix.mulVec_add, Matrix.mulVec_smul, Matrix.mulVec_smul]⟩

/-- Example for C103: a rotation by a right angle, and an invertible map that is no rotation. -/
example : (!![0, 1; -1, 0] : Matrix (Fin 2) (Fin 2) ℝ) * (!![0, 1; -1, 0] : Matrix (Fin 2) (Fin 2) ℝ)ᵀ = 1 ∧
    (!![2, 1; 0, 3] : Matrix (Fin 2) (Fin 2) ℝ).det ≠ 0 := by
  constructor
  · ext i j
    fin_cases i <;> fin_cases j <;> simp [Matrix.mul_apply, Fin.sum_univ_two]
  · rw [Matrix.det_fin_two_of]
    norm_num

end C103

end OpenML
