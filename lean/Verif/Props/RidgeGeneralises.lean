import Verif.Props.Stability
import Verif.Spec.RidgeGeneralises
import Mathlib.Analysis.Matrix.PosDef
import Mathlib.Algebra.Order.Star.Real
import Mathlib.Data.Fin.Tuple.Basic

/-!
# C169: leave-one-out errors of ridge regression, and how it generalises
-/

namespace OpenML

open LinearModel Spec Matrix Stability

namespace RidgeGeneralises

theorem fit_total {n d : Nat} (lambda : ℝ) (hl : 0 < lambda) (b : Bool) (X : Matrix (Fin n) (Fin d) ℝ) (y : Fin n → ℝ) :
    ∃ w, fitRidge lambda b X y = some w := by
  obtain ⟨w, hw, -⟩ := C56_ridge lambda hl b X y
  exact ⟨w, hw⟩

theorem predict_row {n m d : Nat} {b : Bool} {X : Matrix (Fin n) (Fin d) ℝ} {Z : Matrix (Fin m) (Fin d) ℝ} {i : Fin n} {k : Fin m}
    (h : X i = Z k) (w : Fin (width b d) → ℝ) : predict X b w i = predict Z b w k := by
  cases b
  · change ∑ j, X i j * w j = ∑ j, Z k j * w j
    rw [h]
  · change ∑ j, X i j * w (Fin.castSucc j) + _ = ∑ j, Z k j * w (Fin.castSucc j) + _
    rw [h]

/-- Training with the prediction for the left out sample as its target gives the same weights. -/
theorem fit_fill {n d : Nat} {lambda : ℝ} (hl : 0 < lambda) {b : Bool} {X : Matrix (Fin (n + 1)) (Fin d) ℝ} {y : Fin (n + 1) → ℝ}
    {i : Fin (n + 1)} {w : Fin (width b d) → ℝ}
    (hw : fitRidge lambda b (X.submatrix i.succAbove id) (fun j => y (i.succAbove j)) = some w) :
    fitRidge lambda b X (Function.update y i (predict X b w i)) = some w := by
  obtain ⟨v, hv⟩ := fit_total lambda hl b X (Function.update y i (predict X b w i))
  have n1 := normal hv (v - w)
  have n2 := normal hw (v - w)
  have hp : ∀ u j, predict (X.submatrix i.succAbove id) b u j = predict X b u (i.succAbove j) := by
    intro u j
    cases b <;> rfl
  rw [Fin.sum_univ_succAbove _ i] at n1
  simp only [hp] at n2
  simp only [Function.update_self, Function.update_of_ne (Fin.succAbove_ne i _)] at n1
  have e1 : ∑ j : Fin n, predict X b (v - w) (i.succAbove j) ^ 2 =
      ∑ j : Fin n, predict X b (v - w) (i.succAbove j) * (predict X b v (i.succAbove j) - y (i.succAbove j)) -
      ∑ j : Fin n, predict X b (v - w) (i.succAbove j) * (predict X b w (i.succAbove j) - y (i.succAbove j)) := by
    rw [← Finset.sum_sub_distrib]
    refine Finset.sum_congr rfl fun j _ => ?_
    rw [predict_sub]
    ring
  have e2 : size (v - w) ^ 2 = ∑ j, (v - w) j * v j - ∑ j, (v - w) j * w j := by
    rw [← sq_sum, ← Finset.sum_sub_distrib]
    refine Finset.sum_congr rfl fun j _ => ?_
    simp only [Pi.sub_apply]
    ring
  have hsum : 0 ≤ ∑ j : Fin n, predict X b (v - w) (i.succAbove j) ^ 2 := Finset.sum_nonneg fun _ _ => sq_nonneg _
  rw [← predict_sub] at n1
  have h0 : size (v - w) ^ 2 = 0 := by
    have h1 : lambda * size (v - w) ^ 2 ≤ 0 := by
      rw [e2, mul_sub]
      nlinarith [mul_self_nonneg (predict X b (v - w) i)]
    have h2 := sq_nonneg (size (v - w))
    nlinarith
  rw [size_sq] at h0
  have h3 : v = w := by
    funext j
    have := (Finset.sum_eq_zero_iff_of_nonneg fun j _ => sq_nonneg ((v - w) j)).mp h0 j (Finset.mem_univ j)
    have h4 := pow_eq_zero_iff (two_ne_zero) |>.mp this
    exact sub_eq_zero.mp h4
  rw [hv, h3]

/-- Leverages are below one. -/
theorem leverage {n d : Nat} {lambda : ℝ} (hl : 0 < lambda) {b : Bool} {X : Matrix (Fin n) (Fin d) ℝ} {H : Matrix (Fin n) (Fin n) ℝ}
    (hH : ∀ y v, fitRidge lambda b X y = some v → predict X b v = H *ᵥ y) (i : Fin n) :
    0 ≤ H i i ∧ H i i * (sampleSize b (X i) ^ 2 + lambda) ≤ sampleSize b (X i) ^ 2 ∧ H i i < 1 := by
  obtain ⟨v, hv⟩ := fit_total lambda hl b X (Pi.single i 1)
  have h1 : predict X b v i = H i i := by
    rw [hH _ _ hv]
    simp
  have n1 := normal hv v
  have h2 : ∑ j, predict X b v j * (predict X b v j - (Pi.single i 1 : Fin n → ℝ) j) = ∑ j, predict X b v j ^ 2 - H i i := by
    simp only [mul_sub, Finset.sum_sub_distrib, sq]
    congr 1
    rw [← h1, Finset.sum_eq_single i]
    · simp
    · intro j _ hj
      simp [hj]
    · simp
  rw [h2, sq_sum] at n1
  have h3 : H i i ^ 2 ≤ ∑ j, predict X b v j ^ 2 := by
    rw [← h1]
    exact Finset.single_le_sum (f := fun j => predict X b v j ^ 2) (fun j _ => sq_nonneg _) (Finset.mem_univ i)
  have h4 : H i i ^ 2 ≤ sampleSize b (X i) ^ 2 * size v ^ 2 := by
    rw [← h1, ← mul_pow]
    exact sq_le_sq' (by linarith [(abs_le.mp (predict_le b X v i)).1]) (abs_le.mp (predict_le b X v i)).2
  have hv2 := sq_nonneg (size v)
  have hs2 := sq_nonneg (sampleSize b (X i))
  have h0 : 0 ≤ H i i := by nlinarith [sq_nonneg (H i i)]
  have h5 : H i i * (sampleSize b (X i) ^ 2 + lambda) ≤ sampleSize b (X i) ^ 2 := by
    rcases h0.eq_or_lt with h | h
    · rw [← h, zero_mul]
      exact hs2
    · have h6 : H i i * (H i i * (sampleSize b (X i) ^ 2 + lambda)) ≤ H i i * sampleSize b (X i) ^ 2 := by
        nlinarith [mul_le_mul_of_nonneg_left h4 hl.le, mul_nonneg hs2 (sub_nonneg.mpr h3)]
      exact le_of_mul_le_mul_left h6 h
  refine ⟨h0, h5, ?_⟩
  by_contra hc
  nlinarith

/-- The effective number of weights. -/
theorem freedom {m p : Nat} (lambda : ℝ) (hl : 0 < lambda) (D : Matrix (Fin m) (Fin p) ℝ) :
    ∑ i, (D * (Dᵀ * D + lambda • (1 : Matrix (Fin p) (Fin p) ℝ))⁻¹ * Dᵀ) i i ≤ p := by
  have hA : (Dᵀ * D + lambda • (1 : Matrix (Fin p) (Fin p) ℝ)).PosDef := by
    refine Matrix.PosDef.posSemidef_add ?_ (Matrix.PosDef.one.smul hl)
    exact Matrix.posSemidef_conjTranspose_mul_self D
  have hu : IsUnit (Dᵀ * D + lambda • (1 : Matrix (Fin p) (Fin p) ℝ)).det := (Matrix.isUnit_iff_isUnit_det _).mp hA.isUnit
  have h1 : ∑ i, (D * (Dᵀ * D + lambda • (1 : Matrix (Fin p) (Fin p) ℝ))⁻¹ * Dᵀ) i i = (D * (Dᵀ * D + lambda • (1 : Matrix (Fin p) (Fin p) ℝ))⁻¹ * Dᵀ).trace := rfl
  have h2 : (Dᵀ * D + lambda • (1 : Matrix (Fin p) (Fin p) ℝ))⁻¹ * (Dᵀ * D) = 1 - lambda • (Dᵀ * D + lambda • (1 : Matrix (Fin p) (Fin p) ℝ))⁻¹ := by
    have h3 := Matrix.nonsing_inv_mul _ hu
    rw [Matrix.mul_add, Matrix.mul_smul, Matrix.mul_one] at h3
    exact eq_sub_of_add_eq h3
  rw [h1, Matrix.mul_assoc, Matrix.trace_mul_comm, Matrix.mul_assoc, h2, Matrix.trace_sub, Matrix.trace_one, Fintype.card_fin,
    Matrix.trace_smul, smul_eq_mul]
  have := mul_nonneg hl.le hA.inv.posSemidef.trace_nonneg
  linarith

theorem sum_leave {N n : Nat} (i : Fin (n + 1)) (f : Fin N → (Fin n → Fin N) → ℝ) :
    ∑ z : Fin (n + 1) → Fin N, f (z i) (fun j => z (i.succAbove j)) = ∑ z, ∑ k, f k z := by
  rw [Finset.sum_comm, ← Fintype.sum_prod_type', ← Equiv.sum_comp (Fin.insertNthEquiv (fun _ => Fin N) i)]
  refine Finset.sum_congr rfl fun p _ => ?_
  simp [Fin.insertNthEquiv]

theorem overDraws_mono {N n : Nat} {f g : (Fin n → Fin N) → ℝ} (h : ∀ z, f z ≤ g z) : overDraws f ≤ overDraws g :=
  div_le_div_of_nonneg_right (Finset.sum_le_sum fun z _ => h z) (by positivity)

theorem overDraws_mul {N n : Nat} (c : ℝ) (f : (Fin n → Fin N) → ℝ) : overDraws (fun z => c * f z) = c * overDraws f := by
  unfold overDraws
  rw [← Finset.mul_sum, mul_div_assoc]

theorem overDraws_add {N n : Nat} (hN : 0 < N) (c : ℝ) (f : (Fin n → Fin N) → ℝ) : overDraws (fun z => f z + c) = overDraws f + c := by
  have hN' : ((N : ℝ) ^ n) ≠ 0 := pow_ne_zero _ (by exact_mod_cast hN.ne')
  unfold overDraws
  rw [Finset.sum_add_distrib, add_div, Finset.sum_const, Finset.card_univ, Fintype.card_fun, Fintype.card_fin, Fintype.card_fin, nsmul_eq_mul]
  push_cast
  rw [mul_div_cancel_left₀ _ hN']

theorem overDraws_const {N n : Nat} (hN : 0 < N) (c : ℝ) : overDraws (fun _ : Fin n → Fin N => c) = c := by
  have := overDraws_add (n := n) hN c fun _ => 0
  simpa [overDraws] using this

/-- The errors for the samples left out are on average those on the population. -/
theorem left_out {N n d : Nat} (hN : 0 < N) (b : Bool) (pop : Fin N → (Fin d → ℝ) × ℝ) (w : (Fin n → Fin N) → Fin (width b d) → ℝ) :
    overDraws (fun z : Fin (n + 1) → Fin N => meanSquare fun i =>
      drawnY pop z i - predict (drawnX pop z) b (w fun j => z (i.succAbove j)) i) =
      overDraws fun z => meanSquare fun k => drawnY pop id k - predict (drawnX pop id) b (w z) k := by
  have hN' : (N : ℝ) ≠ 0 := by exact_mod_cast hN.ne'
  have hn' : ((n + 1 : Nat) : ℝ) ≠ 0 := by exact_mod_cast n.succ_ne_zero
  have hloo : ∀ (z : Fin (n + 1) → Fin N) i, drawnY pop z i - predict (drawnX pop z) b (w fun j => z (i.succAbove j)) i =
      drawnY pop id (z i) - predict (drawnX pop id) b (w fun j => z (i.succAbove j)) (z i) := fun z i =>
    congrArg (fun t => drawnY pop z i - t) (predict_row (X := drawnX pop z) (Z := drawnX pop id) (i := i) (k := z i) rfl _)
  unfold overDraws meanSquare
  simp only [hloo]
  rw [← Finset.sum_div, Finset.sum_comm]
  simp only [sum_leave _ fun k z' => (drawnY pop id k - predict (drawnX pop id) b (w z') k) ^ 2]
  rw [Finset.sum_const, Finset.card_univ, Fintype.card_fin, nsmul_eq_mul, mul_div_cancel_left₀ _ hn', ← Finset.sum_div, pow_succ]
  field_simp

end RidgeGeneralises

open RidgeGeneralises

/-- C169: the predictions of ridge regression for its training data are a symmetric matrix times the targets. Its diagonal entries are between
zero and one, their sum is at most the number of weights, and the error for a sample that is left out of the training data is the error of training with it, divided by one minus
the diagonal entry. -/
theorem C169_leave_one_out {n d : Nat} (lambda : ℝ) (hl : 0 < lambda) (b : Bool) (X : Matrix (Fin (n + 1)) (Fin d) ℝ) :
    ∃ H : Matrix (Fin (n + 1)) (Fin (n + 1)) ℝ, (∀ y v, fitRidge lambda b X y = some v → predict X b v = H *ᵥ y) ∧ Hᵀ = H ∧ ∑ i, H i i ≤ width b d ∧
      ∀ i, 0 ≤ H i i ∧ H i i ≤ sampleSize b (X i) ^ 2 / (sampleSize b (X i) ^ 2 + lambda) ∧ H i i < 1 ∧
      ∀ y v w, fitRidge lambda b X y = some v →
        fitRidge lambda b (X.submatrix i.succAbove id) (fun j => y (i.succAbove j)) = some w →
        y i - predict X b w i = (y i - predict X b v i) / (1 - H i i) := by
  have hex : ∃ H : Matrix (Fin (n + 1)) (Fin (n + 1)) ℝ, (∀ y v, fitRidge lambda b X y = some v → predict X b v = H *ᵥ y) ∧ Hᵀ = H ∧
      ∑ i, H i i ≤ width b d := by
    refine ⟨design X b * ((design X b)ᵀ * design X b + lambda • 1)⁻¹ * (design X b)ᵀ, ?_, ?_, ?_⟩
    · intro y v hv
      unfold fitRidge at hv
      simp only [Option.bind_eq_bind, Option.bind_eq_some_iff, Option.some.injEq] at hv
      obtain ⟨inv, h1, rfl⟩ := hv
      unfold inverse at h1
      split at h1
      · cases h1
      · cases h1
        rw [predict_eq, Matrix.mulVec_mulVec, Matrix.mul_assoc]
    · rw [Matrix.transpose_mul, Matrix.transpose_mul, Matrix.transpose_transpose, Matrix.transpose_nonsing_inv, Matrix.transpose_add,
        Matrix.transpose_mul, Matrix.transpose_transpose, Matrix.transpose_smul, Matrix.transpose_one, Matrix.mul_assoc]
    · exact freedom lambda hl (design X b)
  obtain ⟨H, hH, hsym, hsum⟩ := hex
  refine ⟨H, hH, hsym, hsum, fun i => ?_⟩
  obtain ⟨h1, h2, h3⟩ := leverage hl hH i
  refine ⟨h1, ?_, h3, ?_⟩
  · rw [le_div_iff₀ (by positivity)]
    exact h2
  · intro y v w hv hw
    have h4 := congrFun (hH _ _ (fit_fill hl hw)) i
    have h5 := congrFun (hH _ _ hv) i
    have h6 : (H *ᵥ Function.update y i (predict X b w i)) i = (H *ᵥ y) i + H i i * (predict X b w i - y i) := by
      have : Function.update y i (predict X b w i) = y + Pi.single i (predict X b w i - y i) := by
        funext j
        by_cases hj : j = i
        · subst hj
          simp
        · simp [hj]
      rw [this, Matrix.mulVec_add, Pi.add_apply]
      simp
    rw [eq_div_iff (by linarith)]
    rw [h6, ← h5] at h4
    linear_combination (-1 : ℝ) * h4

/-- Example: two samples with the values 1 and 2 and an intercept. -/
example : ∃ v w, fitRidge 3 true (!![1; 2] : Matrix (Fin (1 + 1)) (Fin 1) ℝ) ![5, 7] = some v ∧
    fitRidge 3 true ((!![1; 2] : Matrix (Fin (1 + 1)) (Fin 1) ℝ).submatrix (0 : Fin 2).succAbove id)
      (fun j => (![5, 7] : Fin 2 → ℝ) ((0 : Fin 2).succAbove j)) = some w := by
  obtain ⟨v, hv⟩ := fit_total 3 (by norm_num) true (!![1; 2] : Matrix (Fin (1 + 1)) (Fin 1) ℝ) ![5, 7]
  obtain ⟨w, hw⟩ := fit_total 3 (by norm_num) true ((!![1; 2] : Matrix (Fin (1 + 1)) (Fin 1) ℝ).submatrix (0 : Fin 2).succAbove id)
    (fun j => (![5, 7] : Fin 2 → ℝ) ((0 : Fin 2).succAbove j))
  exact ⟨v, w, hv, hw⟩

/-- C169: draw `n + 1` samples with replacement, fit and divide each error by one minus the diagonal entry. The mean of the squares is on
average exactly the mean squared error, on the whole population, of training with `n` samples. -/
theorem C169_unbiased {N n d : Nat} (hN : 0 < N) (lambda : ℝ) (hl : 0 < lambda) (b : Bool) (pop : Fin N → (Fin d → ℝ) × ℝ)
    (H : (Fin (n + 1) → Fin N) → Matrix (Fin (n + 1)) (Fin (n + 1)) ℝ)
    (hH : ∀ z y v, fitRidge lambda b (drawnX pop z) y = some v → predict (drawnX pop z) b v = H z *ᵥ y)
    (v : (Fin (n + 1) → Fin N) → Fin (width b d) → ℝ) (hv : ∀ z, fitRidge lambda b (drawnX pop z) (drawnY pop z) = some (v z))
    (w : (Fin n → Fin N) → Fin (width b d) → ℝ) (hw : ∀ z, fitRidge lambda b (drawnX pop z) (drawnY pop z) = some (w z)) :
    overDraws (fun z => meanSquare fun i => (drawnY pop z i - predict (drawnX pop z) b (v z) i) / (1 - H z i i)) =
      overDraws fun z => meanSquare fun k => drawnY pop id k - predict (drawnX pop id) b (w z) k := by
  rw [← left_out hN b pop w]
  unfold meanSquare
  refine congrArg overDraws (funext fun z => congrArg (· / ((n + 1 : Nat) : ℝ)) (Finset.sum_congr rfl fun i _ => ?_))
  obtain ⟨H', h1, -, -, h2⟩ := C169_leave_one_out lambda hl b (drawnX pop z)
  have h3 : H z i i = H' i i := by
    obtain ⟨u, hu⟩ := fit_total lambda hl b (drawnX pop z) (Pi.single i 1)
    have h4 := congrFun ((hH z _ _ hu).symm.trans (h1 _ _ hu)) i
    simpa using h4
  obtain ⟨-, -, -, h5⟩ := h2 i
  dsimp only
  rw [h3, ← h5 (drawnY pop z) (v z) (w fun j => z (i.succAbove j)) (hv z) (hw fun j => z (i.succAbove j))]

/-- A population of three samples with one feature, of length at most 2 without intercept. -/
def examplePop : Fin 3 → (Fin 1 → ℝ) × ℝ := ![(![1], 5), (![2], 7), (![-2], 0)]

/-- Example: the diagonal entries and weights of all draws from three samples. -/
example : ∃ (H : (Fin (2 + 1) → Fin 3) → Matrix (Fin (2 + 1)) (Fin (2 + 1)) ℝ) (v : (Fin (2 + 1) → Fin 3) → Fin (width false 1) → ℝ)
    (w : (Fin 2 → Fin 3) → Fin (width false 1) → ℝ),
    (∀ z y v, fitRidge 3 false (drawnX examplePop z) y = some v → predict (drawnX examplePop z) false v = H z *ᵥ y) ∧
    (∀ z, fitRidge 3 false (drawnX examplePop z) (drawnY examplePop z) = some (v z)) ∧
    ∀ z, fitRidge 3 false (drawnX examplePop z) (drawnY examplePop z) = some (w z) := by
  choose H hH using fun z : Fin (2 + 1) → Fin 3 => C169_leave_one_out 3 (by norm_num) false (drawnX examplePop z)
  choose v hv using fun z : Fin (2 + 1) → Fin 3 => fit_total 3 (by norm_num) false (drawnX examplePop z) (drawnY examplePop z)
  choose w hw using fun z : Fin 2 → Fin 3 => fit_total 3 (by norm_num) false (drawnX examplePop z) (drawnY examplePop z)
  exact ⟨H, v, w, fun z => (hH z).1, hv, hw⟩

/-- C169: on average over draws with replacement from a population of samples of length at most `R`, the mean squared error on the
population of training with `n` samples is at least the error of training with `n + 1` samples on these samples, at most `(1 + R² / lambda)²` times
that, and at most that factor times the error plus penalty of any weights. -/
theorem C169_generalisation {N n d : Nat} (hN : 0 < N) (lambda R : ℝ) (hl : 0 < lambda) (b : Bool) (pop : Fin N → (Fin d → ℝ) × ℝ)
    (hR : ∀ k, sampleSize b (pop k).1 ≤ R)
    (v : (Fin (n + 1) → Fin N) → Fin (width b d) → ℝ) (hv : ∀ z, fitRidge lambda b (drawnX pop z) (drawnY pop z) = some (v z))
    (w : (Fin n → Fin N) → Fin (width b d) → ℝ) (hw : ∀ z, fitRidge lambda b (drawnX pop z) (drawnY pop z) = some (w z)) :
    let train := overDraws fun z => meanSquare fun i => drawnY pop z i - predict (drawnX pop z) b (v z) i
    let test := overDraws fun z => meanSquare fun k => drawnY pop id k - predict (drawnX pop id) b (w z) k
    train ≤ test ∧ test ≤ (1 + R ^ 2 / lambda) ^ 2 * train ∧
    ∀ u : Fin (width b d) → ℝ, test ≤ (1 + R ^ 2 / lambda) ^ 2 *
      (meanSquare (fun k => drawnY pop id k - predict (drawnX pop id) b u k) + lambda * size u ^ 2 / (n + 1)) := by
  intro train test
  have htest : test = overDraws fun z : Fin (n + 1) → Fin N => meanSquare fun i =>
      drawnY pop z i - predict (drawnX pop z) b (w fun j => z (i.succAbove j)) i := (left_out hN b pop w).symm
  have hone : ∀ (z : Fin (n + 1) → Fin N) i,
      |drawnY pop z i - predict (drawnX pop z) b (v z) i| ≤
        |drawnY pop z i - predict (drawnX pop z) b (w fun j => z (i.succAbove j)) i| ∧
      |drawnY pop z i - predict (drawnX pop z) b (w fun j => z (i.succAbove j)) i| ≤
        (1 + R ^ 2 / lambda) * |drawnY pop z i - predict (drawnX pop z) b (v z) i| := by
    intro z i
    obtain ⟨-, h1, h2⟩ := C156_leave_out lambda hl b (drawnX pop z) (drawnY pop z) i (v z) (w fun j => z (i.succAbove j)) (hv z)
      (hw fun j => z (i.succAbove j))
    refine ⟨h2, ?_⟩
    have h3 : sampleSize b (drawnX pop z i) ^ 2 ≤ R ^ 2 := pow_le_pow_left₀ (Real.sqrt_nonneg _) (hR (z i)) 2
    have h4 : sampleSize b (drawnX pop z i) ^ 2 * |drawnY pop z i - predict (drawnX pop z) b (v z) i| / lambda ≤
        R ^ 2 * |drawnY pop z i - predict (drawnX pop z) b (v z) i| / lambda :=
      div_le_div_of_nonneg_right (mul_le_mul_of_nonneg_right h3 (abs_nonneg _)) hl.le
    have h5 := abs_sub_le (drawnY pop z i) (predict (drawnX pop z) b (v z) i) (predict (drawnX pop z) b (w fun j => z (i.succAbove j)) i)
    calc _ ≤ _ := h5
      _ ≤ |drawnY pop z i - predict (drawnX pop z) b (v z) i| + R ^ 2 * |drawnY pop z i - predict (drawnX pop z) b (v z) i| / lambda := by
        linarith
      _ = _ := by ring
  have hc : 0 ≤ 1 + R ^ 2 / lambda := by positivity
  have hup : test ≤ (1 + R ^ 2 / lambda) ^ 2 * train := by
    rw [htest, ← overDraws_mul]
    refine overDraws_mono fun z => ?_
    unfold meanSquare
    rw [← mul_div_assoc, Finset.mul_sum]
    refine div_le_div_of_nonneg_right (Finset.sum_le_sum fun i _ => ?_) (by positivity)
    rw [← sq_abs, ← sq_abs (drawnY pop z i - predict (drawnX pop z) b (v z) i), ← mul_pow]
    exact pow_le_pow_left₀ (abs_nonneg _) (hone z i).2 2
  refine ⟨?_, hup, fun u => hup.trans (mul_le_mul_of_nonneg_left ?_ (sq_nonneg _))⟩
  · rw [htest]
    refine overDraws_mono fun z => ?_
    unfold meanSquare
    exact div_le_div_of_nonneg_right (Finset.sum_le_sum fun i _ => sq_le_sq.mpr (hone z i).1) (by positivity)
  · have h1 := left_out (n := n) hN b pop fun _ => u
    rw [overDraws_const hN] at h1
    rw [← h1, ← overDraws_add hN]
    refine overDraws_mono fun z => ?_
    unfold meanSquare
    push_cast
    rw [← add_div]
    refine div_le_div_of_nonneg_right ?_ (by positivity)
    obtain ⟨w', hw', hmin⟩ := C56_ridge lambda hl b (drawnX pop z) (drawnY pop z)
    rw [hv z] at hw'
    cases hw'
    have h2 : squaredError (predict (drawnX pop z) b (v z)) (drawnY pop z) + lambda * squaredNorm (v z) ≤
        squaredError (predict (drawnX pop z) b u) (drawnY pop z) + lambda * squaredNorm u := by
      by_cases hu : u = v z
      · rw [hu]
      · exact (hmin u hu).le
    have h3 : 0 ≤ lambda * squaredNorm (v z) := mul_nonneg hl.le (Finset.sum_nonneg fun _ _ => sq_nonneg _)
    have h4 : ∀ u, ∑ i, (drawnY pop z i - predict (drawnX pop z) b u i) ^ 2 = squaredError (predict (drawnX pop z) b u) (drawnY pop z) := by
      intro u
      unfold squaredError
      exact Finset.sum_congr rfl fun i _ => by ring
    rw [h4, h4, size_sq]
    linarith

/-- Example: these samples have length at most 2, so the factor is 49 / 9. -/
example : (∀ k, sampleSize false (examplePop k).1 ≤ 2) ∧ ((1 : ℝ) + 2 ^ 2 / 3) ^ 2 = 49 / 9 ∧
    ∃ v : (Fin (2 + 1) → Fin 3) → Fin (width false 1) → ℝ,
      ∀ z, fitRidge 3 false (drawnX examplePop z) (drawnY examplePop z) = some (v z) := by
  refine ⟨fun k => ?_, by norm_num, ?_⟩
  · unfold sampleSize
    rw [Real.sqrt_le_left (by norm_num)]
    fin_cases k <;> simp [examplePop, squaredNorm] <;> norm_num
  · choose v hv using fun z : Fin (2 + 1) → Fin 3 => fit_total 3 (by norm_num) false (drawnX examplePop z) (drawnY examplePop z)
    exact ⟨v, hv⟩

end OpenML
