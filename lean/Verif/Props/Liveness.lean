import Verif.Lemmas.Liveness
import Verif.Props.LogisticMinimum

/-!
# C126: mini-batch training always ends with weights if it gets enough epochs
-/

namespace OpenML

open Spec Loss SGD LinearFit
open scoped BigOperators

/-- C126: let the summed losses of the epochs be bounded below by `c`, let the first epoch's be less than `N` times
`tol * batch_size` above `c`. Then more than `N * num_iters_no_change` epochs suffice for `optimize` to return weights, whatever
learning rates and gradients are. -/
theorem C126_bound {W S : Type} (loss : LossFn ℝ W) (weights : S → W) (step : Step ℝ S) (p : Params ℝ) (hb : p.batchSize ≠ 0)
    (X : DMat ℝ) (y : List ℝ) (s : S) (D : Nat → DMat ℝ × List ℝ) (st : Nat → S) (L : Nat → ℝ)
    (hr : IsRun loss weights step p (X.nrows / p.batchSize) X y s p.maxIter D st L) (c : ℝ) (hc : ∀ i < p.maxIter, c ≤ L i) (N : Nat)
    (h0 : L 0 - c < N * (p.tol * p.batchSize)) (hN : N * p.noChange < p.maxIter) :
    ∃ i ≤ N * p.noChange, optimize loss weights step p X y s = .ok (weights (st (i + 1))) := by
  obtain ⟨i, hi, hs⟩ := Liveness.stall (p.tol * (p.batchSize : ℝ)) c L p.noChange N (fun i hi => hc i (by omega)) h0
  rcases firstStall_or (p.tol * (p.batchSize : ℝ)) L p.noChange (i + 1) with ⟨M, hM, hf⟩ | hn
  · exact ⟨M, by omega, optimize_ok loss weights step p hb X y s M (by omega) D st L
      (isRun_mono loss weights step p _ X y s (show M + 1 ≤ p.maxIter by omega) hr) hf⟩
  · exact absurd hs (hn i (by omega))

/-- C126: `SGD` on the mean squared error with a positive tolerance: up to some number `M` of epochs training throws, and with
every larger `max_iter` it returns, always with the same weights. -/
theorem C126_mse (lambda : ℝ) (hl : 0 ≤ lambda) (p : Params ℝ) (hb : p.batchSize ≠ 0) (ht : 0 < p.tol) (X : DMat ℝ) (hX : X.WF)
    (y : List ℝ) (hy : y.length = X.nrows) (hp : ∀ q, p.shuffle = some q → ∀ i, (q i).Perm (List.range X.nrows))
    (he : ∀ i, ∃ lr, p.decay i = .ok lr) (w : List ℝ) (hw : w.length = X.ncols) :
    ∃ M w', ∀ n, sgd ⟨mseEvaluate lambda, mseGradient lambda⟩ clipGrad vanillaUpdate { p with maxIter := n } X y w =
      if M < n then .ok w' else .throw .runtimeError :=
  Liveness.sgd_publishes _ (fun _ => True) (Liveness.usable_mean _ _ _ lambda hl (Descent.isMean_mse lambda) _
    fun a _ s => by unfold halfSquare; positivity) p hb ht X hX y hy (fun _ _ => trivial) hp he w hw

/-- With the rate 4 the weights swing ever further beyond the optimum 2; `SGD` reports success after three epochs, with the loss
1458 where the initial weights had 2. -/
example : sgd ⟨mseEvaluate (0 : ℚ), mseGradient 0⟩ clipGrad vanillaUpdate
      { maxIter := 50, batchSize := 2, noChange := 2, tol := 1 / 100, decay := fun _ => .ok 4, shuffle := none }
      ⟨1, [[1], [-1]]⟩ [2, -2] [0] = .ok [56] ∧
    mseEvaluate (0 : ℚ) ⟨1, [[1], [-1]]⟩ [2, -2] [0] = .ok 2 ∧ mseEvaluate (0 : ℚ) ⟨1, [[1], [-1]]⟩ [2, -2] [56] = .ok 1458 := by
  decide +kernel

/-- C126: logistic regression with solver `sgd` or `sag`, labels between 0 and 1 and a positive tolerance: up to some number `M`
of epochs training throws, and with every larger `max_iter` it returns, always with the same weights. -/
theorem C126_logistic (lambda l1Ratio : ℝ) (penalty solver : String) (hpen : penalty = "l2" ∨ penalty = "None")
    (hsol : solver = "sgd" ∨ solver = "sag") (hl : 0 ≤ lambda) (p : Params ℝ)
    (lbfgs : LossFn ℝ (List ℝ) → DMat ℝ → List ℝ → List ℝ → Res (List ℝ)) (hb : p.batchSize ≠ 0) (ht : 0 < p.tol) (X : DMat ℝ)
    (hX : X.WF) (y : List ℝ) (hy : y.length = X.nrows) (hlab : ∀ a ∈ y, 0 ≤ a ∧ a ≤ 1)
    (hp : ∀ q, p.shuffle = some q → ∀ i, (q i).Perm (List.range X.nrows)) (he : ∀ i, ∃ lr, p.decay i = .ok lr) (w : List ℝ)
    (hw : w.length = X.ncols + 1) :
    ∃ M w', ∀ n, fitLogistic lambda l1Ratio penalty solver { p with maxIter := n } lbfgs X y w =
      if M < n then .ok w' else .throw .runtimeError := by
  have hu := Liveness.usable_mean _ _ _ lambda hl (Descent.isMean_log lambda) (fun a => 0 ≤ a ∧ a ≤ 1)
    fun a ha s => Descent.crossEntropy_nonneg a s ha.1 ha.2
  have hy' : y.length = (withOnes X).nrows := by rw [withOnes_nrows]; exact hy
  have hp' : ∀ q, p.shuffle = some q → ∀ i, (q i).Perm (List.range (withOnes X).nrows) := by rw [withOnes_nrows]; exact hp
  rcases hsol with rfl | rfl
  · obtain ⟨M, w', h⟩ := Liveness.sgd_publishes _ _ hu p hb ht (withOnes X) (withOnes_wf X hX) y hy' hlab hp' he w hw
    refine ⟨M, w', fun n => ?_⟩
    rw [← h n]
    unfold fitLogistic
    dsimp only
    rw [if_pos hpen, if_pos rfl]
  · obtain ⟨M, w', h⟩ := Liveness.sag_publishes _ _ hu p hb ht (withOnes X) (withOnes_wf X hX) y hy' hlab hp' he w hw
    refine ⟨M, w', fun n => ?_⟩
    rw [← h n]
    unfold fitLogistic
    dsimp only
    rw [if_pos hpen, if_neg (by decide), if_pos rfl]

/-- Two samples with labels 1 and 0, the default rate and tolerance: there is a number of epochs that suffices. -/
example (lbfgs : LossFn ℝ (List ℝ) → DMat ℝ → List ℝ → List ℝ → Res (List ℝ)) :
    ∃ n w', fitLogistic 0 0 "None" "sag"
      { maxIter := n, batchSize := 1, noChange := 5, tol := 1 / 10000, decay := fun _ => .ok (1 / 10), shuffle := none } lbfgs
      ⟨1, [[1], [-1]]⟩ [1, 0] [0, 0] = .ok w' := by
  obtain ⟨M, w', h⟩ := C126_logistic 0 0 "None" "sag" (by simp) (by simp) le_rfl
    { maxIter := 0, batchSize := 1, noChange := 5, tol := 1 / 10000, decay := fun _ => .ok (1 / 10), shuffle := none } lbfgs
    (by norm_num) (by norm_num) ⟨1, [[1], [-1]]⟩ (by simp [DMat.WF]) [1, 0] rfl (by simp) (by simp) (fun _ => ⟨_, rfl⟩) [0, 0] rfl
  refine ⟨M + 1, w', ?_⟩
  have := h (M + 1)
  rwa [if_pos (by omega)] at this

namespace Liveness

open Descent

/-- The excess over the minimum after epochs of gradient descent with a ridge term. -/
theorem linear_rate (loss : LossFn ℝ (List ℝ)) (phi dphi : ℝ → ℝ → ℝ) (lambda : ℝ) (c : ℝ) (hc : 0 ≤ c)
    (ht : ∀ y s t, phi y s + dphi y s * (t - s) ≤ phi y t)
    (hu : ∀ y s t, phi y t ≤ phi y s + dphi y s * (t - s) + c / 2 * (t - s) ^ 2) (hl : 0 < lambda)
    (hm : IsMean loss phi dphi lambda) (p : Params ℝ) (X : DMat ℝ) (hX : X.WF) (hn : X.nrows ≠ 0) (y : List ℝ)
    (hy : y.length = X.nrows) (hpos : ∀ a ∈ y, ∀ s, 0 ≤ phi a s) (hb : p.batchSize = X.nrows)
    (hp : ∀ q, p.shuffle = some q → ∀ i, (q i).Perm (List.range X.nrows)) (eta : Nat → ℝ) (he : ∀ i, p.decay i = .ok (eta i))
    (h0 : ∀ i, 0 ≤ eta i) (h1 : ∀ i, eta i * steepness c lambda X.rows ≤ 1) (w w' : List ℝ) (hw : w.length = X.ncols)
    (a : ℝ) (ha : loss.evaluate X y w = .ok a) (hclip : 2 * steepness c lambda X.rows * a ≤ 10 ^ 20)
    (h : sgd loss clipGrad vanillaUpdate p X y w = .ok w') :
    ∃ K, p.noChange < K ∧ K ≤ p.maxIter ∧ ∃ b, loss.evaluate X y w' = .ok b ∧
      ∀ u m, u.length = X.ncols → loss.evaluate X y u = .ok m →
        b - m ≤ (∏ i ∈ Finset.range K, (1 - eta i * lambda / X.nrows)) * (a - m) := by
  obtain ⟨f, rfl⟩ := exists_ofFn w hw
  obtain ⟨i, hi1, hi2, rfl, _⟩ := full_batch loss phi dphi lambda hm p X hX hn y hy hb hp eta he f w' h
  refine ⟨i + 1, by omega, by omega, _, evaluate_objective loss phi dphi lambda hm X hX y hy _, fun u m hul hum => ?_⟩
  obtain ⟨g, rfl⟩ := exists_ofFn u hul
  rw [evaluate_objective loss phi dphi lambda hm X hX y hy, Res.ok.injEq] at ha hum
  subst ha hum
  have hS := smooth_data phi dphi lambda c hc ht hu hl.le X hX y hy
  have hL := steepness_nonneg c lambda hc hl.le X.rows
  have hzl : (X.rows.zip y).length = X.nrows := by
    rw [List.length_zip, hy]; exact Nat.min_self _
  have hN : (0 : ℝ) < X.nrows := by positivity
  have hle := run_le hS eta h0 (fun i => (h1 i).trans (by norm_num)) (iterate (gradOf dphi lambda (X.rows.zip y)) eta f) (i + 1)
    (fun _ _ => rfl)
  set v := iterate (gradOf dphi lambda (X.rows.zip y)) eta f with hv
  have hf : ∀ j, 0 ≤ 1 - eta j * lambda / X.nrows := by
    intro j
    have h2 : lambda / X.nrows ≤ steepness c lambda X.rows := by
      unfold steepness
      refine div_le_div_of_nonneg_right ?_ (Nat.cast_nonneg _)
      have : 0 ≤ featureMass X.rows := List.sum_nonneg fun a ha => by
        obtain ⟨x, _, rfl⟩ := List.mem_map.mp ha
        exact List.sum_nonneg fun b hb => by
          obtain ⟨z, _, rfl⟩ := List.mem_map.mp hb
          exact sq_nonneg z
      nlinarith [mul_nonneg hc this]
    have h3 := mul_le_mul_of_nonneg_left h2 (h0 j)
    have h4 := h1 j
    rw [mul_div_assoc]
    linarith
  have key : ∀ k ≤ i + 1, objective phi lambda (X.rows.zip y) (v k) - objective phi lambda (X.rows.zip y) g ≤
      (∏ j ∈ Finset.range k, (1 - eta j * lambda / X.nrows)) * (objective phi lambda (X.rows.zip y) f - objective phi lambda (X.rows.zip y) g) := by
    intro k
    induction k with
    | zero => intro _; simp [hv, iterate]
    | succ k ih =>
      intro hk
      have h4 : 2 * steepness c lambda X.rows * objective phi lambda (X.rows.zip y) (v k) ≤ 10 ^ 20 :=
        (mul_le_mul_of_nonneg_left (hle 0 k (by omega) (by omega)) (by positivity)).trans hclip
      have hun := unclipped hS hL (objective_nonneg phi lambda hl.le _ fun q hq => hpos q.2 (List.of_mem_zip hq).2) (v k) h4
      have hnext : v (k + 1) = fun j => v k j - eta k * gradOf dphi lambda (X.rows.zip y) (v k) j := by
        show move _ (eta k) (v k) = _
        funext j
        unfold move
        rw [hun j]
      have h5 := along_gradient hS (eta k) (v k)
      rw [← hnext] at h5
      have h6 := gap_le_gradient phi dphi lambda ht hl (X.rows.zip y) (by rw [hzl]; exact hn) (v k) g
      rw [hzl] at h6
      have h7 : 0 ≤ ∑ j, gradOf dphi lambda (X.rows.zip y) (v k) j ^ 2 := Finset.sum_nonneg fun j _ => sq_nonneg _
      have h8 : eta k / 2 * ∑ j, gradOf dphi lambda (X.rows.zip y) (v k) j ^ 2 ≤
          eta k * (1 - eta k * steepness c lambda X.rows / 2) * ∑ j, gradOf dphi lambda (X.rows.zip y) (v k) j ^ 2 :=
        mul_le_mul_of_nonneg_right (by nlinarith [h0 k, h1 k]) h7
      have h9 : eta k * lambda / X.nrows * (objective phi lambda (X.rows.zip y) (v k) - objective phi lambda (X.rows.zip y) g) ≤
          eta k / 2 * ∑ j, gradOf dphi lambda (X.rows.zip y) (v k) j ^ 2 := by
        have h11 := mul_le_mul_of_nonneg_left h6 (show 0 ≤ eta k / (2 * X.nrows) from div_nonneg (h0 k) (by positivity))
        have e1 : eta k / (2 * X.nrows) * (2 * lambda * (objective phi lambda (X.rows.zip y) (v k) - objective phi lambda (X.rows.zip y) g)) =
            eta k * lambda / X.nrows * (objective phi lambda (X.rows.zip y) (v k) - objective phi lambda (X.rows.zip y) g) := by field_simp
        have e2 : eta k / (2 * X.nrows) * (X.nrows * ∑ j, gradOf dphi lambda (X.rows.zip y) (v k) j ^ 2) =
            eta k / 2 * ∑ j, gradOf dphi lambda (X.rows.zip y) (v k) j ^ 2 := by field_simp
        rwa [e1, e2] at h11
      have h12 := mul_le_mul_of_nonneg_left (ih (by omega)) (hf k)
      rw [Finset.prod_range_succ]
      linarith
  exact key (i + 1) le_rfl

end Liveness

/-- C126: least squares with ridge term, all samples in one batch, learning rates up to the inverse of the steepness and a start
from which no gradient is clipped: every epoch multiplies the excess of the loss over that of any other weights (so over the
minimum) by at most `1 - eta * lambda / n`. -/
theorem C126_mse_rate (lambda : ℝ) (hl : 0 < lambda) (p : Params ℝ) (X : DMat ℝ) (hX : X.WF) (hn : X.nrows ≠ 0) (y : List ℝ)
    (hy : y.length = X.nrows) (hb : p.batchSize = X.nrows) (hp : ∀ q, p.shuffle = some q → ∀ i, (q i).Perm (List.range X.nrows))
    (eta : Nat → ℝ) (he : ∀ i, p.decay i = .ok (eta i)) (h0 : ∀ i, 0 ≤ eta i) (h1 : ∀ i, eta i * steepness 1 lambda X.rows ≤ 1)
    (w w' : List ℝ) (hw : w.length = X.ncols) (a : ℝ) (ha : mseEvaluate lambda X y w = .ok a)
    (hclip : 2 * steepness 1 lambda X.rows * a ≤ 10 ^ 20)
    (h : sgd ⟨mseEvaluate lambda, mseGradient lambda⟩ clipGrad vanillaUpdate p X y w = .ok w') :
    ∃ K, p.noChange < K ∧ K ≤ p.maxIter ∧ ∃ b, mseEvaluate lambda X y w' = .ok b ∧
      ∀ u m, u.length = X.ncols → mseEvaluate lambda X y u = .ok m →
        b - m ≤ (∏ i ∈ Finset.range K, (1 - eta i * lambda / X.nrows)) * (a - m) :=
  Liveness.linear_rate ⟨mseEvaluate lambda, mseGradient lambda⟩ halfSquare (fun a s => s - a) lambda 1 (by norm_num)
    halfSquare_tangent Descent.halfSquare_upper hl (Descent.isMean_mse lambda) p X hX hn y hy
    (fun a _ s => by unfold halfSquare; positivity) hb hp eta he h0 h1 w w' hw a ha hclip h

/-- C126: the same for logistic regression with solver `sgd` and labels between 0 and 1. -/
theorem C126_logistic_rate (lambda l1Ratio : ℝ) (penalty : String) (hpen : penalty = "l2" ∨ penalty = "None") (hl : 0 < lambda)
    (p : Params ℝ) (lbfgs : LossFn ℝ (List ℝ) → DMat ℝ → List ℝ → List ℝ → Res (List ℝ)) (X : DMat ℝ) (hX : X.WF)
    (hn : X.nrows ≠ 0) (y : List ℝ) (hy : y.length = X.nrows) (hlab : ∀ a ∈ y, 0 ≤ a ∧ a ≤ 1) (hb : p.batchSize = X.nrows)
    (hp : ∀ q, p.shuffle = some q → ∀ i, (q i).Perm (List.range X.nrows)) (eta : Nat → ℝ) (he : ∀ i, p.decay i = .ok (eta i))
    (h0 : ∀ i, 0 ≤ eta i) (h1 : ∀ i, eta i * steepness (1 / 4) lambda (X.rows.map fun r => r ++ [1]) ≤ 1) (w w' : List ℝ)
    (hw : w.length = X.ncols + 1) (a : ℝ) (ha : logEvaluate lambda (withOnes X) y w = .ok a)
    (hclip : 2 * steepness (1 / 4) lambda (X.rows.map fun r => r ++ [1]) * a ≤ 10 ^ 20)
    (h : fitLogistic lambda l1Ratio penalty "sgd" p lbfgs X y w = .ok w') :
    ∃ K, p.noChange < K ∧ K ≤ p.maxIter ∧ ∃ b, logEvaluate lambda (withOnes X) y w' = .ok b ∧
      ∀ u m, u.length = X.ncols + 1 → logEvaluate lambda (withOnes X) y u = .ok m →
        b - m ≤ (∏ i ∈ Finset.range K, (1 - eta i * lambda / X.nrows)) * (a - m) := by
  have := Liveness.linear_rate ⟨logEvaluate lambda, logGradient lambda⟩ crossEntropy (fun a s => Real.sigmoid s - a) lambda (1 / 4)
    (by norm_num) crossEntropy_tangent Descent.crossEntropy_upper hl (Descent.isMean_log lambda) p (withOnes X) (withOnes_wf X hX)
    (by rw [withOnes_nrows]; exact hn) y (by rw [withOnes_nrows]; exact hy)
    (fun a ha s => Descent.crossEntropy_nonneg a s (hlab a ha).1 (hlab a ha).2) (by rw [withOnes_nrows]; exact hb)
    (by rw [withOnes_nrows]; exact hp) eta he h0 h1 w w' hw a ha hclip
    (fitLogistic_sgd lambda l1Ratio penalty hpen p lbfgs X y w w' h)
  rwa [withOnes_nrows] at this

/-- The two samples of the example in `Props/Descent.lean`, for which the steepness is 3/2: from the loss 2 at weight 0 the four
epochs with rate 1/2 reach a loss at most `(3/4)^4` times as far above the minimum. -/
example : (∏ i ∈ Finset.range 4, (1 - (1 / 2 : ℝ) * 1 / 2)) = (3 / 4) ^ 4 ∧ mseEvaluate (1 : ℚ) ⟨1, [[1], [-1]]⟩ [2, -2] [85 / 64] = .ok (10923 / 16384) ∧
    mseEvaluate (1 : ℚ) ⟨1, [[1], [-1]]⟩ [2, -2] [4 / 3] = .ok (2 / 3) := by
  refine ⟨by norm_num, by decide +kernel, by decide +kernel⟩

end OpenML
