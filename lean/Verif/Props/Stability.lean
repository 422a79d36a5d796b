import Verif.Props.LinearModel
import Verif.Props.LinearStatistics
import Verif.Spec.Stability

/-!
# C156: linear and ridge regression depend on the training data in a controlled way
-/

namespace OpenML

open LinearModel Spec Matrix

namespace Stability

theorem size_nonneg {p : Nat} (w : Fin p → ℝ) : 0 ≤ size w := Real.sqrt_nonneg _

theorem size_sq {p : Nat} (w : Fin p → ℝ) : size w ^ 2 = squaredNorm w :=
  Real.sq_sqrt (Finset.sum_nonneg fun _ _ => sq_nonneg _)

/-- The normal equations, tested with a vector. -/
theorem normal {n d : Nat} {lambda : ℝ} {b : Bool} {X : Matrix (Fin n) (Fin d) ℝ} {y : Fin n → ℝ} {w : Fin (width b d) → ℝ}
    (h : fitRidge lambda b X y = some w) (u : Fin (width b d) → ℝ) :
    ∑ i, predict X b u i * (predict X b w i - y i) + lambda * ∑ j, u j * w j = 0 := by
  have hw : ((design X b)ᵀ * design X b + lambda • 1) *ᵥ w = (design X b)ᵀ *ᵥ y := by
    unfold fitRidge at h
    simp only [Option.bind_eq_bind, Option.bind_eq_some_iff, Option.some.injEq] at h
    obtain ⟨inv, h1, rfl⟩ := h
    rw [Matrix.mulVec_mulVec, ← Matrix.mul_assoc, inverse_solves _ _ h1, Matrix.one_mul]
  have h1 := congrArg (fun z => u ⬝ᵥ z) hw
  simp only [Matrix.add_mulVec, Matrix.smul_mulVec, Matrix.one_mulVec, dotProduct_add, dotProduct_smul, smul_eq_mul,
    ← Matrix.mulVec_mulVec, Matrix.dotProduct_mulVec, Matrix.vecMul_transpose] at h1
  simp only [← Matrix.dotProduct_mulVec, ← predict_eq] at h1
  have h2 : ∑ i, predict X b u i * (predict X b w i - y i) =
      predict X b u ⬝ᵥ predict X b w - predict X b u ⬝ᵥ y := by
    simp only [dotProduct, ← Finset.sum_sub_distrib, mul_sub]
  rw [h2]
  have h3 : ∑ j, u j * w j = u ⬝ᵥ w := rfl
  rw [h3]
  simp only [Matrix.mulVec_mulVec, predict_eq, Matrix.dotProduct_mulVec, Matrix.vecMul_transpose] at h1 ⊢
  linarith

theorem predict_sub {n d : Nat} (b : Bool) (X : Matrix (Fin n) (Fin d) ℝ) (v w : Fin (width b d) → ℝ) (i : Fin n) :
    predict X b (v - w) i = predict X b v i - predict X b w i := by
  simp only [predict_eq, Matrix.mulVec_sub, Pi.sub_apply]

theorem predict_le {n d : Nat} (b : Bool) (X : Matrix (Fin n) (Fin d) ℝ) (u : Fin (width b d) → ℝ) (i : Fin n) :
    |predict X b u i| ≤ sampleSize b (X i) * size u := by
  have hrow : ∑ j, design X b i j ^ 2 = squaredNorm (X i) + if b then 1 else 0 := by
    cases b with
    | false =>
      simp [design, squaredNorm]
      rfl
    | true =>
      change ∑ j : Fin (d + 1), (Fin.snoc (α := fun _ => ℝ) (X i) 1 : Fin (d + 1) → ℝ) j ^ 2 = _
      rw [Fin.sum_univ_castSucc]
      simp [squaredNorm]
  have h : predict X b u i ^ 2 ≤ (∑ j, design X b i j ^ 2) * ∑ j, u j ^ 2 := by
    rw [predict_eq]
    change (∑ j, design X b i j * u j) ^ 2 ≤ _
    exact Finset.sum_mul_sq_le_sq_mul_sq _ _ _
  have hs : 0 ≤ squaredNorm (X i) + if b then (1 : ℝ) else 0 := by
    rw [← hrow]
    exact Finset.sum_nonneg fun _ _ => sq_nonneg _
  apply abs_le_of_sq_le_sq _ (mul_nonneg (Real.sqrt_nonneg _) (Real.sqrt_nonneg _))
  have hu : Real.sqrt (squaredNorm u) ^ 2 = ∑ j, u j ^ 2 := size_sq u
  rw [mul_pow, Real.sq_sqrt hs, hu, ← hrow]
  exact h

theorem sq_sum {p : Nat} (u : Fin p → ℝ) : ∑ j, u j * u j = size u ^ 2 := by
  rw [size_sq]
  simp [squaredNorm, sq]

theorem cancel {a s c : ℝ} (hs : 0 ≤ s) (hc : 0 ≤ c) (h : a * s ^ 2 ≤ c * s) : a * s ≤ c := by
  rcases hs.eq_or_lt with h0 | h0
  · rw [← h0, mul_zero]
    exact hc
  · nlinarith

end Stability

open Stability

/-- C156, targets: if the targets change from `y` to `z`, the predictions of ridge regression on the training data change by at most as much in
Euclidean length, and the weights by at most that length divided by twice the square root of the regularisation. -/
theorem C156_targets {n d : Nat} (lambda : ℝ) (hl : 0 < lambda) (b : Bool) (X : Matrix (Fin n) (Fin d) ℝ) (y z : Fin n → ℝ)
    (v w : Fin (width b d) → ℝ) (hv : fitRidge lambda b X y = some v) (hw : fitRidge lambda b X z = some w) :
    size (predict X b v - predict X b w) ≤ size (y - z) ∧ size (v - w) ≤ size (y - z) / (2 * Real.sqrt lambda) := by
  have n1 := normal hv (v - w)
  have n2 := normal hw (v - w)
  have hid : squaredNorm (predict X b v - predict X b w) + lambda * squaredNorm (v - w) =
      ∑ i, (predict X b v - predict X b w) i * (y - z) i := by
    have e1 : squaredNorm (predict X b v - predict X b w) - ∑ i, (predict X b v - predict X b w) i * (y - z) i =
        ∑ i, predict X b (v - w) i * (predict X b v i - y i) - ∑ i, predict X b (v - w) i * (predict X b w i - z i) := by
      rw [squaredNorm, ← Finset.sum_sub_distrib, ← Finset.sum_sub_distrib]
      refine Finset.sum_congr rfl fun i _ => ?_
      rw [predict_sub]
      simp only [Pi.sub_apply]
      ring
    have e2 : squaredNorm (v - w) = ∑ j, (v - w) j * v j - ∑ j, (v - w) j * w j := by
      rw [squaredNorm, ← Finset.sum_sub_distrib]
      refine Finset.sum_congr rfl fun j _ => ?_
      simp only [Pi.sub_apply]
      ring
    rw [e2, mul_sub]
    linarith
  have hcs : (∑ i, (predict X b v - predict X b w) i * (y - z) i) ^ 2 ≤ squaredNorm (predict X b v - predict X b w) * squaredNorm (y - z) :=
    Finset.sum_mul_sq_le_sq_mul_sq _ _ _
  set P := predict X b v - predict X b w
  have hP := size_nonneg P
  have hD := size_nonneg (y - z)
  have hU := size_nonneg (v - w)
  rw [← size_sq, ← size_sq] at hid hcs
  have hle : ∑ i, P i * (y - z) i ≤ size P * size (y - z) := by
    apply le_of_abs_le
    apply abs_le_of_sq_le_sq _ (mul_nonneg hP hD)
    rw [mul_pow]
    exact hcs
  constructor
  · have := cancel (a := 1) hP hD (by nlinarith [mul_nonneg hl.le (sq_nonneg (size (v - w)))])
    linarith
  · have hs : 0 < Real.sqrt lambda := Real.sqrt_pos.mpr hl
    rw [le_div_iff₀ (by linarith)]
    have hll : Real.sqrt lambda ^ 2 = lambda := Real.sq_sqrt hl.le
    apply le_of_sq_le_sq _ hD
    nlinarith [sq_nonneg (2 * size P - size (y - z))]

/-- C156, linear regression: where the weights are determined by the data, the predictions on the training data change by at most as much as the
targets. -/
theorem C156_linear {n d : Nat} (b : Bool) (X : Matrix (Fin n) (Fin d) ℝ) (y z : Fin n → ℝ)
    (v w : Fin (width b d) → ℝ) (hv : fitLinear b X y = some v) (hw : fitLinear b X z = some w) :
    size (predict X b v - predict X b w) ≤ size (y - z) := by
  rw [← C56_ridge_zero] at hv hw
  have n1 := normal hv (v - w)
  have n2 := normal hw (v - w)
  rw [zero_mul, add_zero] at n1 n2
  have hid : squaredNorm (predict X b v - predict X b w) = ∑ i, (predict X b v - predict X b w) i * (y - z) i := by
    have e1 : squaredNorm (predict X b v - predict X b w) - ∑ i, (predict X b v - predict X b w) i * (y - z) i =
        ∑ i, predict X b (v - w) i * (predict X b v i - y i) - ∑ i, predict X b (v - w) i * (predict X b w i - z i) := by
      rw [squaredNorm, ← Finset.sum_sub_distrib, ← Finset.sum_sub_distrib]
      refine Finset.sum_congr rfl fun i _ => ?_
      rw [predict_sub]
      simp only [Pi.sub_apply]
      ring
    linarith
  have hcs : (∑ i, (predict X b v - predict X b w) i * (y - z) i) ^ 2 ≤ squaredNorm (predict X b v - predict X b w) * squaredNorm (y - z) :=
    Finset.sum_mul_sq_le_sq_mul_sq _ _ _
  set P := predict X b v - predict X b w
  have hP := size_nonneg P
  have hD := size_nonneg (y - z)
  rw [← size_sq, ← size_sq] at hcs
  rw [← size_sq] at hid
  have hle : ∑ i, P i * (y - z) i ≤ size P * size (y - z) := by
    apply le_of_abs_le
    apply abs_le_of_sq_le_sq _ (mul_nonneg hP hD)
    rw [mul_pow]
    exact hcs
  have := cancel (a := 1) hP hD (by linarith)
  linarith

/-- C156, one sample more or less: leaving out sample `i` moves the weights of ridge regression by at most the length of the sample times its residual,
divided by the regularisation. So a sample that is fitted exactly can be left out without any effect. -/
theorem C156_leave_out {n d : Nat} (lambda : ℝ) (hl : 0 < lambda) (b : Bool) (X : Matrix (Fin (n + 1)) (Fin d) ℝ) (y : Fin (n + 1) → ℝ)
    (i : Fin (n + 1)) (v w : Fin (width b d) → ℝ) (hv : fitRidge lambda b X y = some v)
    (hw : fitRidge lambda b (X.submatrix i.succAbove id) (fun j => y (i.succAbove j)) = some w) :
    size (v - w) ≤ sampleSize b (X i) * |y i - predict X b v i| / lambda ∧
    |predict X b v i - predict X b w i| ≤ sampleSize b (X i) ^ 2 * |y i - predict X b v i| / lambda ∧
    |y i - predict X b v i| ≤ |y i - predict X b w i| := by
  have n1 := normal hv (v - w)
  have n2 := normal hw (v - w)
  have hp : ∀ u j, predict (X.submatrix i.succAbove id) b u j = predict X b u (i.succAbove j) := by
    intro u j
    cases b <;> rfl
  rw [Fin.sum_univ_succAbove _ i] at n1
  simp only [hp] at n2
  have hid : ∑ j : Fin n, predict X b (v - w) (i.succAbove j) ^ 2 + lambda * size (v - w) ^ 2 =
      predict X b (v - w) i * (y i - predict X b v i) := by
    have e1 : ∑ j : Fin n, predict X b (v - w) (i.succAbove j) ^ 2 =
        ∑ j : Fin n, predict X b (v - w) (i.succAbove j) * (predict X b v (i.succAbove j) - y (i.succAbove j)) -
        ∑ j : Fin n, predict X b (v - w) (i.succAbove j) * (predict X b w (i.succAbove j) - y (i.succAbove j)) := by
      rw [← Finset.sum_sub_distrib]
      refine Finset.sum_congr rfl fun j _ => ?_
      rw [predict_sub]
      ring
    have e2 : size (v - w) ^ 2 = ∑ j, (v - w) j * v j - ∑ j, (v - w) j * w j := by
      rw [← sq_sum, ← Finset.sum_sub_distrib]
      refine Finset.sum_congr rfl fun j _ => ?_
      simp only [Pi.sub_apply]
      ring
    rw [e1, e2, mul_sub]
    linarith
  have hsum : 0 ≤ ∑ j : Fin n, predict X b (v - w) (i.succAbove j) ^ 2 := Finset.sum_nonneg fun _ _ => sq_nonneg _
  have hx := predict_le b X (v - w) i
  have hU := size_nonneg (v - w)
  have hS : 0 ≤ sampleSize b (X i) := Real.sqrt_nonneg _
  have hr := abs_nonneg (y i - predict X b v i)
  have hprod : predict X b (v - w) i * (y i - predict X b v i) ≤ sampleSize b (X i) * size (v - w) * |y i - predict X b v i| := by
    refine (le_abs_self _).trans ?_
    rw [abs_mul]
    exact mul_le_mul_of_nonneg_right hx hr
  have h1 : size (v - w) ≤ sampleSize b (X i) * |y i - predict X b v i| / lambda := by
    rw [le_div_iff₀ hl, mul_comm]
    refine cancel hU (mul_nonneg hS hr) ?_
    nlinarith
  refine ⟨h1, ?_, ?_⟩
  · rw [← predict_sub]
    refine hx.trans ((mul_le_mul_of_nonneg_left h1 hS).trans (le_of_eq ?_))
    ring
  · have hpos : 0 ≤ predict X b (v - w) i * (y i - predict X b v i) := by
      rw [← hid]
      exact add_nonneg hsum (mul_nonneg hl.le (sq_nonneg _))
    rw [predict_sub] at hpos
    refine sq_le_sq.mp ?_
    nlinarith [sq_nonneg (predict X b v i - predict X b w i)]

/-- C156, one sample replaced: if two data sets agree except in sample `i`, the weights of ridge regression differ by at most the sum, over the two
versions of that sample, of its length times its error under the second weights, divided by the regularisation. -/
theorem C156_replace {n d : Nat} (lambda : ℝ) (hl : 0 < lambda) (b : Bool) (X X' : Matrix (Fin n) (Fin d) ℝ) (y y' : Fin n → ℝ)
    (i : Fin n) (hX : ∀ j, j ≠ i → X j = X' j) (hy : ∀ j, j ≠ i → y j = y' j) (v w : Fin (width b d) → ℝ)
    (hv : fitRidge lambda b X y = some v) (hw : fitRidge lambda b X' y' = some w) :
    size (v - w) ≤ (sampleSize b (X i) * |y i - predict X b w i| + sampleSize b (X' i) * |y' i - predict X' b w i|) / lambda := by
  have n1 := normal hv (v - w)
  have n2 := normal hw (v - w)
  have hp : ∀ u j, j ≠ i → predict X b u j = predict X' b u j := by
    intro u j hj
    cases b with
    | false => exact congrArg (fun r : Fin d → ℝ => r ⬝ᵥ u) (hX j hj)
    | true => exact congrArg (fun r : Fin d → ℝ => (r ⬝ᵥ fun k : Fin d => u (Fin.castSucc k)) + u (Fin.last d)) (hX j hj)
  rw [← Finset.add_sum_erase _ _ (Finset.mem_univ i)] at n1 n2
  have hid : ∑ j, predict X b (v - w) j ^ 2 + lambda * size (v - w) ^ 2 =
      predict X b (v - w) i * (y i - predict X b w i) - predict X' b (v - w) i * (y' i - predict X' b w i) := by
    have e1 : ∑ j ∈ Finset.univ.erase i, predict X b (v - w) j ^ 2 =
        ∑ j ∈ Finset.univ.erase i, predict X b (v - w) j * (predict X b v j - y j) -
        ∑ j ∈ Finset.univ.erase i, predict X' b (v - w) j * (predict X' b w j - y' j) := by
      rw [← Finset.sum_sub_distrib]
      refine Finset.sum_congr rfl fun j hj => ?_
      have hj := Finset.ne_of_mem_erase hj
      rw [← hp _ j hj, ← hp _ j hj, predict_sub, hy j hj]
      ring
    have e2 : size (v - w) ^ 2 = ∑ j, (v - w) j * v j - ∑ j, (v - w) j * w j := by
      rw [← sq_sum, ← Finset.sum_sub_distrib]
      refine Finset.sum_congr rfl fun j _ => ?_
      simp only [Pi.sub_apply]
      ring
    rw [← Finset.add_sum_erase _ _ (Finset.mem_univ i), e1, e2, mul_sub]
    have e3 := predict_sub b X v w i
    have e4 : predict X b v i = predict X b (v - w) i + predict X b w i := by linarith
    rw [e4] at n1
    nlinarith
  have hsum : 0 ≤ ∑ j, predict X b (v - w) j ^ 2 := Finset.sum_nonneg fun _ _ => sq_nonneg _
  have hU := size_nonneg (v - w)
  have bound : ∀ (Z : Matrix (Fin n) (Fin d) ℝ) (r : ℝ), |predict Z b (v - w) i * r| ≤ sampleSize b (Z i) * |r| * size (v - w) := by
    intro Z r
    rw [abs_mul]
    have := mul_le_mul_of_nonneg_right (predict_le b Z (v - w) i) (abs_nonneg r)
    linarith
  have b1 := bound X (y i - predict X b w i)
  have b2 := bound X' (y' i - predict X' b w i)
  have a1 := le_abs_self (predict X b (v - w) i * (y i - predict X b w i))
  have a2 := neg_abs_le (predict X' b (v - w) i * (y' i - predict X' b w i))
  rw [le_div_iff₀ hl, mul_comm]
  refine cancel hU (add_nonneg (mul_nonneg (Real.sqrt_nonneg _) (abs_nonneg _)) (mul_nonneg (Real.sqrt_nonneg _) (abs_nonneg _))) ?_
  nlinarith

/-- C156, regularisation: the weights change by at most the relative change of the regularisation times their length. -/
theorem C156_regularisation {n d : Nat} (lambda mu : ℝ) (hl : 0 < lambda) (b : Bool) (X : Matrix (Fin n) (Fin d) ℝ) (y : Fin n → ℝ)
    (v w : Fin (width b d) → ℝ) (hv : fitRidge lambda b X y = some v) (hw : fitRidge mu b X y = some w) :
    size (v - w) ≤ |mu - lambda| / lambda * size w := by
  have n1 := normal hv (v - w)
  have n2 := normal hw (v - w)
  have hid : ∑ i, predict X b (v - w) i ^ 2 + lambda * size (v - w) ^ 2 = (mu - lambda) * ∑ j, (v - w) j * w j := by
    have e1 : ∑ i, predict X b (v - w) i ^ 2 =
        ∑ i, predict X b (v - w) i * (predict X b v i - y i) - ∑ i, predict X b (v - w) i * (predict X b w i - y i) := by
      rw [← Finset.sum_sub_distrib]
      refine Finset.sum_congr rfl fun i _ => ?_
      rw [predict_sub]
      ring
    have e2 : size (v - w) ^ 2 = ∑ j, (v - w) j * v j - ∑ j, (v - w) j * w j := by
      rw [← sq_sum, ← Finset.sum_sub_distrib]
      refine Finset.sum_congr rfl fun j _ => ?_
      simp only [Pi.sub_apply]
      ring
    rw [e1, e2, mul_sub]
    linarith
  have hsum : 0 ≤ ∑ i, predict X b (v - w) i ^ 2 := Finset.sum_nonneg fun _ _ => sq_nonneg _
  have hU := size_nonneg (v - w)
  have hW := size_nonneg w
  have hcs : |∑ j, (v - w) j * w j| ≤ size (v - w) * size w := by
    apply abs_le_of_sq_le_sq _ (mul_nonneg hU hW)
    rw [mul_pow, size_sq, size_sq]
    exact Finset.sum_mul_sq_le_sq_mul_sq _ _ _
  rw [div_mul_eq_mul_div, le_div_iff₀ hl, mul_comm]
  refine cancel hU (mul_nonneg (abs_nonneg _) hW) ?_
  have h1 := le_abs_self ((mu - lambda) * ∑ j, (v - w) j * w j)
  rw [abs_mul] at h1
  have h2 := mul_le_mul_of_nonneg_left hcs (abs_nonneg (mu - lambda))
  linarith

/-! ## Examples -/

namespace Stability

/-- One sample with the feature 1. -/
abbrev oneSample : Matrix (Fin 1) (Fin 1) ℝ := Matrix.of fun _ _ => 1

/-- Two samples with the features 0 and 1. -/
abbrev twoSamples : Matrix (Fin 2) (Fin 1) ℝ := Matrix.of fun i _ => (i : ℝ)

theorem oneSample_fit (y : Fin 1 → ℝ) : ∃ w : Fin 1 → ℝ, fitRidge 1 false oneSample y = some w ∧ w = fun _ => y 0 / 2 := by
  obtain ⟨w, hw, _⟩ := C56_ridge 1 one_pos false oneSample y
  have h := normal hw (fun _ => 1)
  refine ⟨w, hw, ?_⟩
  have key : ∀ u : Fin 1 → ℝ, (∑ i : Fin 1, (∑ j : Fin 1, (1 : ℝ) * 1) * ((∑ j : Fin 1, (1 : ℝ) * u j) - y i)) +
      1 * ∑ j : Fin 1, (1 : ℝ) * u j = 0 → u = fun _ => y 0 / 2 := by
    intro u h
    simp at h
    funext j
    have : j = 0 := Subsingleton.elim _ _
    rw [this]
    linarith
  exact key w h

end Stability

/-- C156: the bound for changed targets is attained. Beside C156_targets. -/
theorem C156_attained : ∃ (v w : Fin (width false 1) → ℝ) (y z : Fin 1 → ℝ), fitRidge 1 false oneSample y = some v ∧
    fitRidge 1 false oneSample z = some w ∧ size (y - z) = 1 ∧ size (v - w) = size (y - z) / (2 * Real.sqrt 1) := by
  obtain ⟨v, hv, ev⟩ := oneSample_fit fun _ => 2
  obtain ⟨w, hw, ew⟩ := oneSample_fit fun _ => 1
  have h1 : size ((fun _ => 2 : Fin 1 → ℝ) - fun _ => 1) = 1 := by
    simp [size, squaredNorm]
    norm_num
  have h2 : squaredNorm (v - w) = (1 / 2) ^ 2 := by
    rw [ev, ew]
    simp [squaredNorm]
    norm_num
  have h3 : size (v - w) = 1 / 2 := by
    unfold size
    rw [h2, Real.sqrt_sq (by norm_num)]
  refine ⟨v, w, fun _ => 2, fun _ => 1, hv, hw, h1, h3.trans ?_⟩
  rw [h1]
  norm_num

/-- Beside C156_linear: one sample determines the slope, for every target. -/
example (y : Fin 1 → ℝ) : ∃ v, fitLinear false oneSample y = some v := by
  have h : ((design oneSample false)ᵀ * design oneSample false).det ≠ 0 := by
    change ((oneSample)ᵀ * oneSample).det ≠ 0
    simp [Matrix.mul_apply]
  exact ⟨_, LinearStatistics.fit_some _ _ h _⟩

/-- Beside C156_leave_out, C156_replace and C156_regularisation: ridge regression succeeds on all data, here two samples of which one is left out, one
is replaced. -/
example : ∃ v w w', fitRidge 3 true twoSamples (fun i => (i : ℝ)) = some v ∧
    fitRidge 3 true (twoSamples.submatrix (1 : Fin 2).succAbove id) (fun j => (((1 : Fin 2).succAbove j : Fin 2) : ℝ)) = some w ∧
    fitRidge 3 true (Matrix.of fun i _ => if i = 1 then 5 else (i : ℝ) : Matrix (Fin 2) (Fin 1) ℝ) (fun i => (i : ℝ)) = some w' ∧
    ∀ j : Fin 2, j ≠ 1 → twoSamples j = (Matrix.of fun i _ => if i = 1 then 5 else (i : ℝ) : Matrix (Fin 2) (Fin 1) ℝ) j := by
  obtain ⟨v, hv, _⟩ := C56_ridge 3 (by norm_num) true twoSamples (fun i => (i : ℝ))
  obtain ⟨w, hw, _⟩ := C56_ridge 3 (by norm_num) true (twoSamples.submatrix (1 : Fin 2).succAbove id)
    (fun j => (((1 : Fin 2).succAbove j : Fin 2) : ℝ))
  obtain ⟨w', hw', _⟩ := C56_ridge 3 (by norm_num) true (Matrix.of fun i _ => if i = 1 then 5 else (i : ℝ) : Matrix (Fin 2) (Fin 1) ℝ)
    (fun i => (i : ℝ))
  refine ⟨v, w, w', hv, hw, hw', fun j hj => ?_⟩
  funext k
  simp [hj]

end OpenML
