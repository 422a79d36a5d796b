import Verif.Lemmas.SoftmaxDescent
import Mathlib.Tactic.NormNum.BigOperators

/-!
# Gradient descent on the softmax loss (C153)
-/

namespace OpenML

open Spec Loss Descent SGD Softmax
open scoped BigOperators

section Soft
variable {k : Nat} (hk : 0 < k) (lambda : ℝ) (hlam : 0 ≤ lambda) (p : Params ℝ) (X : DMat ℝ) (hX : X.WF) (hn : X.nrows ≠ 0)
  (y : List ℝ) (hy : y.length = X.nrows) (hlab : ∀ a ∈ y, ∃ c : Fin k, a = ((c.val : Nat) : ℝ))
  (hb : p.batchSize = X.nrows) (hp : ∀ q, p.shuffle = some q → ∀ i, (q i).Perm (List.range X.nrows)) (eta : Nat → ℝ)
  (he : ∀ i, p.decay i = .ok (eta i)) (W W' : DMat ℝ) (hW : Shaped X.ncols k W)
  (h : sgd ⟨softmaxEvaluate lambda, softmaxGradient lambda⟩ clipGradMat vanillaUpdateMat p X y W = .ok W')

include hk hlam hX hn hy hlab hb hp he hW h in
/-- **C153.** `SGD` on the softmax loss with all samples in one batch: if no learning rate exceeds twice the inverse of the
steepness, the mean negative log likelihood plus half `lambda` times the mean squared weights is not larger at the published
weights than at the initial ones. -/
theorem C153_descends (h0 : ∀ i, 0 ≤ eta i) (h2 : ∀ i, eta i * steepness (1 / 2) lambda X.rows ≤ 2) :
    Shaped X.ncols k W' ∧ ∃ a b, softmaxEvaluate 0 X y W = .ok a ∧ softmaxEvaluate 0 X y W' = .ok b ∧
      b + lambda * matrixMass W' / (2 * X.nrows) ≤ a + lambda * matrixMass W / (2 * X.nrows) := by
  obtain ⟨w, rfl⟩ := exists_toDMat W hW
  obtain ⟨labels, rfl⟩ := exists_labels y hlab
  rw [labelVec_length] at hy
  have hne : X.rows ≠ [] := fun hc => hn (by rw [DMat.nrows, hc]; rfl)
  obtain ⟨i, _, _, rfl, _⟩ := full_batch hk lambda p X hX hn labels hy hb hp eta he w W' h
  refine ⟨shaped_toDMat _, _, _, evaluate_evalOf hk 0 X hX hne labels hy _, evaluate_evalOf hk 0 X hX hne labels hy _, ?_⟩
  have := run_le (smooth_data lambda hlam X hX hn labels hy) eta h0 h2
    (iterate (softGrad lambda (X.rows.zip labels)) eta w) (i + 1) (fun _ _ => rfl) 0 (i + 1) (by omega) (le_refl _)
  rw [softObjective_eq, softObjective_eq,
    show (X.rows.zip labels).length = X.nrows by rw [List.length_zip, hy]; exact Nat.min_self _] at this
  exact this

include hk hlam hX hn hy hlab hb hp he hW h in
/-- **C153.** With learning rates up to the inverse of the steepness and a start from which no gradient is clipped, the same
quantity at the published weights exceeds that at any other weights by at most the squared distance of these from the start,
divided by twice the sum of the learning rates of more than `num_iters_no_change` epochs. -/
theorem C153_rate (h0 : ∀ i, 0 ≤ eta i) (h1 : ∀ i, eta i * steepness (1 / 2) lambda X.rows ≤ 1) (a : ℝ)
    (ha : softmaxEvaluate 0 X y W = .ok a)
    (hclip : 2 * steepness (1 / 2) lambda X.rows * (a + lambda * matrixMass W / (2 * X.nrows)) ≤ 10 ^ 20) :
    ∃ K, p.noChange < K ∧ K ≤ p.maxIter ∧ ∃ b, softmaxEvaluate 0 X y W' = .ok b ∧
      ∀ (U : DMat ℝ) (m : ℝ), Shaped X.ncols k U → softmaxEvaluate 0 X y U = .ok m →
        2 * (∑ i ∈ Finset.range K, eta i) *
          (b + lambda * matrixMass W' / (2 * X.nrows) - (m + lambda * matrixMass U / (2 * X.nrows))) ≤ matrixDist W U := by
  obtain ⟨w, rfl⟩ := exists_toDMat W hW
  obtain ⟨labels, rfl⟩ := exists_labels y hlab
  rw [labelVec_length] at hy
  have hne : X.rows ≠ [] := fun hc => hn (by rw [DMat.nrows, hc]; rfl)
  have hlen : (X.rows.zip labels).length = X.nrows := by rw [List.length_zip, hy]; exact Nat.min_self _
  obtain ⟨i, hi1, hi2, rfl, _⟩ := full_batch hk lambda p X hX hn labels hy hb hp eta he w W' h
  refine ⟨i + 1, by omega, by omega, _, evaluate_evalOf hk 0 X hX hne labels hy _, fun U m hU hm => ?_⟩
  obtain ⟨u, rfl⟩ := exists_toDMat U hU
  rw [evaluate_evalOf hk 0 X hX hne labels hy, Res.ok.injEq] at hm ha
  subst hm ha
  rw [matrixDist_toDMat]
  have := run_rate (smooth_data lambda hlam X hX hn labels hy) (steepness_nonneg (1 / 2) lambda (by norm_num) hlam _)
    (softObjective_nonneg lambda hlam _) eta h0 h1 (iterate (softGrad lambda (X.rows.zip labels)) eta w) (i + 1) (fun _ _ => rfl)
    (by rw [softObjective_eq, hlen]; exact hclip) u
  rw [softObjective_eq, softObjective_eq, hlen] at this
  exact this

include hk hX hn hy hlab hb hp he hW h in
/-- **C153.** Without penalty and with positive learning rates, the squared gradient at the published weights is small compared
with the tolerance. -/
theorem C153_gradient (hl0 : lambda = 0) (hnc : p.noChange ≠ 0) (h0 : ∀ i, 0 < eta i)
    (h1 : ∀ i, eta i * steepness (1 / 2) 0 X.rows ≤ 1) (a : ℝ) (ha : softmaxEvaluate 0 X y W = .ok a)
    (hclip : 2 * steepness (1 / 2) 0 X.rows * a ≤ 10 ^ 20) :
    ∃ K, p.noChange ≤ K ∧ K < p.maxIter ∧ ∃ g, softmaxGradient 0 X y W' = .ok g ∧ eta K * matrixMass g < 2 * p.tol * X.nrows := by
  subst hl0
  obtain ⟨w, rfl⟩ := exists_toDMat W hW
  obtain ⟨labels, rfl⟩ := exists_labels y hlab
  rw [labelVec_length] at hy
  have hne : X.rows ≠ [] := fun hc => hn (by rw [DMat.nrows, hc]; rfl)
  obtain ⟨i, hi1, hi2, rfl, hst⟩ := full_batch hk 0 p X hX hn labels hy hb hp eta he w W' h
  rw [evaluate_evalOf hk 0 X hX hne labels hy, Res.ok.injEq] at ha
  subst ha
  have hS := smooth_data 0 (le_refl _) X hX hn labels hy
  have hL := steepness_nonneg (1 / 2) 0 (by norm_num) (le_refl _) X.rows
  refine ⟨i, hi1, hi2, _, gradient_softGrad hk 0 X hX hne labels hy _, ?_⟩
  rw [matrixMass_toDMat]
  obtain ⟨j, hj, hlt⟩ := hst hnc
  have hle := run_le hS eta (fun i => (h0 i).le) (fun i => (h1 i).trans (by norm_num))
    (iterate (softGrad 0 (X.rows.zip labels)) eta w) (i + 1) (fun _ _ => rfl)
  rw [evalOf_zero, evalOf_zero] at hlt
  rw [evalOf_zero] at hclip
  set v := iterate (softGrad 0 (X.rows.zip labels)) eta w with hv
  have h3 := hle (j + 1) i (by omega) (by omega)
  have h4 : 2 * steepness (1 / 2) 0 X.rows * softObjective 0 (X.rows.zip labels) (v i) ≤ 10 ^ 20 :=
    (mul_le_mul_of_nonneg_left (hle 0 i (by omega) (by omega)) (by positivity)).trans hclip
  have hun := unclipped hS hL (softObjective_nonneg 0 (le_refl _) _) (v i) h4
  have hnext : v (i + 1) = fun j => v i j - eta i * softGrad 0 (X.rows.zip labels) (v i) j := by
    show move _ (eta i) (v i) = _
    funext j
    unfold move
    rw [hun j]
  have h5 := along_gradient hS (eta i) (v i)
  have h6 := grad_after hS hL (eta i) (h0 i) ((h1 i).trans (by norm_num)) (v i)
  rw [← hnext] at h5 h6
  have h7 : 0 ≤ ∑ j, softGrad 0 (X.rows.zip labels) (v i) j ^ 2 := Finset.sum_nonneg fun j _ => sq_nonneg _
  have h8 := mul_le_mul_of_nonneg_left h6 (h0 i).le
  have h9 : eta i / 2 * ∑ j, softGrad 0 (X.rows.zip labels) (v i) j ^ 2 ≤
      eta i * (1 - eta i * steepness (1 / 2) 0 X.rows / 2) * ∑ j, softGrad 0 (X.rows.zip labels) (v i) j ^ 2 :=
    mul_le_mul_of_nonneg_right (by nlinarith [h0 i, h1 i]) h7
  linarith

end Soft

/-- **C153.** For any batch size and any learning rates there is a number of epochs after which `SGD` on the softmax loss publishes
weights; with a smaller limit it throws, with a larger one it publishes the same weights. -/
theorem C153_publishes {k : Nat} (hk : 0 < k) (lambda : ℝ) (hlam : 0 ≤ lambda) (p : Params ℝ) (hb : p.batchSize ≠ 0) (ht : 0 < p.tol)
    (X : DMat ℝ) (hX : X.WF) (y : List ℝ) (hy : y.length = X.nrows) (hlab : ∀ a ∈ y, ∃ c : Fin k, a = ((c.val : Nat) : ℝ))
    (hp : ∀ q, p.shuffle = some q → ∀ i, (q i).Perm (List.range X.nrows)) (he : ∀ i, ∃ lr, p.decay i = .ok lr) (W : DMat ℝ)
    (hW : Shaped X.ncols k W) :
    ∃ M W', ∀ n, sgd ⟨softmaxEvaluate lambda, softmaxGradient lambda⟩ clipGradMat vanillaUpdateMat { p with maxIter := n } X y W =
      if M < n then .ok W' else .throw .runtimeError :=
  Liveness.publishes p hb ht X (succeeds hk lambda hlam _ _ _ hb) hX y hy hlab hp he W hW

/-- Example for the theorems of this file: two samples of different classes, weights 0, rate 2. The steepness is 1/2 and the loss at
the start log 2. -/
example : (⟨1, [[1], [-1]]⟩ : DMat ℝ).WF ∧ (∀ a ∈ ([0, 1] : List ℝ), ∃ c : Fin 2, a = ((c.val : Nat) : ℝ)) ∧
    Shaped 1 2 ⟨2, [[0, 0]]⟩ ∧ steepness (1 / 2) 0 [[1], [-1]] = 1 / 2 ∧
    softmaxEvaluate 0 (⟨1, [[1], [-1]]⟩ : DMat ℝ) [0, 1] ⟨2, [[0, 0]]⟩ = .ok (Real.log 2) ∧
    2 * (1 / 2) * Real.log 2 ≤ 10 ^ 20 ∧
    ∃ M W', ∀ n, sgd ⟨softmaxEvaluate 0, softmaxGradient 0⟩ clipGradMat vanillaUpdateMat
      { maxIter := n, batchSize := 2, noChange := 2, tol := 1 / 100, decay := fun _ => .ok 2, shuffle := none }
      (⟨1, [[1], [-1]]⟩ : DMat ℝ) [0, 1] ⟨2, [[0, 0]]⟩ = if M < n then .ok W' else .throw .runtimeError := by
  have hX : (⟨1, [[1], [-1]]⟩ : DMat ℝ).WF := by intro r hr; simp at hr; rcases hr with rfl | rfl <;> rfl
  have hlab : ∀ a ∈ ([0, 1] : List ℝ), ∃ c : Fin 2, a = ((c.val : Nat) : ℝ) := by
    intro a ha
    simp at ha
    rcases ha with rfl | rfl
    · exact ⟨0, by simp⟩
    · exact ⟨1, by simp⟩
  have hW : Shaped 1 2 ⟨2, [[0, 0]]⟩ := ⟨rfl, rfl, by simp⟩
  refine ⟨hX, hlab, hW, by norm_num [steepness, featureMass], ?_, ?_, ?_⟩
  · have := softmaxEvaluate_eq (k := 2) (by norm_num) 0 ⟨1, [[1], [-1]]⟩ hX (by simp) [0, 1] rfl fun _ _ => 0
    simp only [labelVec, toDMat, DMat.nrows] at this
    norm_num [classLoss, score] at this
    exact this
  · have := Real.log_le_sub_one_of_pos (show (0 : ℝ) < 2 by norm_num)
    linarith
  · exact C153_publishes (k := 2) (by norm_num) 0 (le_refl _)
      { maxIter := 0, batchSize := 2, noChange := 2, tol := 1 / 100, decay := fun _ => .ok 2, shuffle := none } (by norm_num)
      (by norm_num) _ hX _ rfl hlab (by simp) (fun _ => ⟨2, rfl⟩) _ hW

/-- With `num_iters_no_change = 0` the first step is published: the weights move towards the class of each sample. -/
example : sgd ⟨softmaxEvaluate 0, softmaxGradient 0⟩ clipGradMat vanillaUpdateMat
      { maxIter := 1, batchSize := 2, noChange := 0, tol := 1 / 100, decay := fun _ => .ok 2, shuffle := none }
      (⟨1, [[1], [-1]]⟩ : DMat ℝ) [0, 1] ⟨2, [[0, 0]]⟩ = .ok ⟨2, [[1, -1]]⟩ := by
  have hX : (⟨1, [[1], [-1]]⟩ : DMat ℝ).WF := by intro r hr; simp at hr; rcases hr with rfl | rfl <;> rfl
  have h1 := softmaxGradient_eq (k := 2) (by norm_num) 0 ⟨1, [[1], [-1]]⟩ hX (by simp) [0, 1] rfl fun _ _ => 0
  have h2 := softmaxEvaluate_eq (k := 2) (by norm_num) 0 ⟨1, [[1], [-1]]⟩ hX (by simp) [0, 1] rfl fun _ c => if c = 0 then 1 else -1
  simp only [labelVec, toDMat, DMat.nrows] at h1 h2
  norm_num [softmaxGrad, cscore, score, List.ofFn_succ] at h1 h2
  norm_num [sgd, optimize, epochLoop, epoch, shuffleXY, batchLoop, middleRows, DMat.nrows, sgdStep, h1, h2, vanillaUpdateMat, clipGradMat,
    MatOps.clip]

end OpenML
