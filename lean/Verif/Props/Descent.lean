import Verif.Lemmas.Descent
import Verif.Props.LinearFit

/-!
# `SGD` with all samples in one batch: descent, rate, gradient at the end (C106)
-/

namespace OpenML

open Spec Loss SGD LinearFit Descent
open scoped BigOperators

namespace Descent

section Generic

variable (loss : LossFn ℝ (List ℝ)) (phi dphi : ℝ → ℝ → ℝ) (lambda : ℝ)

theorem zip_rows (X : DMat ℝ) (y : List ℝ) (hy : y.length = X.nrows) : (X.rows.zip y).map Prod.fst = X.rows :=
  List.map_fst_zip (by rw [hy]; exact le_refl _)

theorem weightDist_ofFn {d : Nat} (v w : Fin d → ℝ) : weightDist (List.ofFn v) (List.ofFn w) = ∑ j, (v j - w j) ^ 2 := by
  have : List.zipWith (fun a b => (a - b) ^ 2) (List.ofFn v) (List.ofFn w) = List.ofFn fun j => (v j - w j) ^ 2 := by
    apply List.ext_getElem
    · simp
    · intro i h1 h2
      simp
  rw [weightDist, this, List.sum_ofFn]

/-- What a call that publishes weights has done. -/
theorem full_batch (hm : IsMean loss phi dphi lambda) (p : Params ℝ) (X : DMat ℝ) (hX : X.WF) (hn : X.nrows ≠ 0) (y : List ℝ)
    (hy : y.length = X.nrows) (hb : p.batchSize = X.nrows) (hp : ∀ q, p.shuffle = some q → ∀ i, (q i).Perm (List.range X.nrows))
    (eta : Nat → ℝ) (he : ∀ i, p.decay i = .ok (eta i)) (w : Fin X.ncols → ℝ) (w' : List ℝ)
    (h : sgd loss clipGrad vanillaUpdate p X y (List.ofFn w) = .ok w') :
    ∃ i, p.noChange ≤ i ∧ i < p.maxIter ∧ w' = List.ofFn (iterate (gradOf dphi lambda (X.rows.zip y)) eta w (i + 1)) ∧
      (p.noChange ≠ 0 → ∃ k < i, objective phi lambda (X.rows.zip y) (iterate (gradOf dphi lambda (X.rows.zip y)) eta w (k + 1)) -
        p.tol * X.nrows < objective phi lambda (X.rows.zip y) (iterate (gradOf dphi lambda (X.rows.zip y)) eta w (i + 1))) := by
  obtain ⟨i, hi, D, st, L, hr, hs, rfl⟩ := (C47_publishes_iff loss id _ p (by rw [hb]; exact hn) X y (List.ofFn w) w').mp h
  rw [hb, Nat.div_self (Nat.pos_of_ne_zero hn)] at hr
  obtain ⟨h1, h2⟩ := full_run loss phi dphi lambda hm p X hX y hy hb hp eta he w (i + 1) D st L hr
  have h3 : p.noChange ≤ i := by
    by_contra hc
    obtain ⟨j, hj, _⟩ := hs.1 0 (Nat.zero_le _) (by omega)
    omega
  refine ⟨i, h3, hi, h1 (i + 1) (le_refl _), fun h0 => ?_⟩
  obtain ⟨k, hk, hlt⟩ := hs.1 i (le_refl _) (by omega)
  rw [h2 k (by omega), h2 i (by omega), hb] at hlt
  exact ⟨k, hk, hlt⟩

variable (c : ℝ) (hc : 0 ≤ c) (ht : ∀ y s t, phi y s + dphi y s * (t - s) ≤ phi y t)
  (hu : ∀ y s t, phi y t ≤ phi y s + dphi y s * (t - s) + c / 2 * (t - s) ^ 2) (hl : 0 ≤ lambda)

include hc ht hu hl in
theorem smooth_data (X : DMat ℝ) (hX : X.WF) (y : List ℝ) (hy : y.length = X.nrows) :
    Smooth (objective (d := X.ncols) phi lambda (X.rows.zip y)) (gradOf dphi lambda (X.rows.zip y)) (steepness c lambda X.rows) := by
  have := smooth_objective (d := X.ncols) phi dphi c hc ht hu lambda hl (X.rows.zip y) fun q hq => hX q.1 (List.of_mem_zip hq).1
  rwa [zip_rows X y hy] at this

theorem evaluate_objective (hm : IsMean loss phi dphi lambda) (X : DMat ℝ) (hX : X.WF) (y : List ℝ) (hy : y.length = X.nrows)
    (w : Fin X.ncols → ℝ) : loss.evaluate X y (List.ofFn w) = .ok (objective phi lambda (X.rows.zip y) w) := by
  rw [hm.evaluate X hX y hy w, objective]
  rw [show (X.rows.zip y).length = X.nrows by rw [List.length_zip, hy]; exact Nat.min_self _]

include hc ht hu hl in
theorem descends (hm : IsMean loss phi dphi lambda) (p : Params ℝ) (X : DMat ℝ) (hX : X.WF) (hn : X.nrows ≠ 0) (y : List ℝ)
    (hy : y.length = X.nrows) (hb : p.batchSize = X.nrows) (hp : ∀ q, p.shuffle = some q → ∀ i, (q i).Perm (List.range X.nrows))
    (eta : Nat → ℝ) (he : ∀ i, p.decay i = .ok (eta i)) (h0 : ∀ i, 0 ≤ eta i) (h2 : ∀ i, eta i * steepness c lambda X.rows ≤ 2)
    (w w' : List ℝ) (hw : w.length = X.ncols) (h : sgd loss clipGrad vanillaUpdate p X y w = .ok w') :
    ∃ a b, loss.evaluate X y w = .ok a ∧ loss.evaluate X y w' = .ok b ∧ b ≤ a := by
  obtain ⟨f, rfl⟩ := exists_ofFn w hw
  obtain ⟨i, _, _, rfl, _⟩ := full_batch loss phi dphi lambda hm p X hX hn y hy hb hp eta he f w' h
  refine ⟨_, _, evaluate_objective loss phi dphi lambda hm X hX y hy f, evaluate_objective loss phi dphi lambda hm X hX y hy _, ?_⟩
  exact run_le (smooth_data phi dphi lambda c hc ht hu hl X hX y hy) eta h0 h2 _ (i + 1) (fun _ _ => rfl) 0 (i + 1) (by omega) (le_refl _)

include hc ht hu hl in
theorem rate (hm : IsMean loss phi dphi lambda) (p : Params ℝ) (X : DMat ℝ) (hX : X.WF) (hn : X.nrows ≠ 0) (y : List ℝ)
    (hy : y.length = X.nrows) (hpos : ∀ a ∈ y, ∀ s, 0 ≤ phi a s) (hb : p.batchSize = X.nrows)
    (hp : ∀ q, p.shuffle = some q → ∀ i, (q i).Perm (List.range X.nrows)) (eta : Nat → ℝ) (he : ∀ i, p.decay i = .ok (eta i))
    (h0 : ∀ i, 0 ≤ eta i) (h1 : ∀ i, eta i * steepness c lambda X.rows ≤ 1) (w w' : List ℝ) (hw : w.length = X.ncols)
    (a : ℝ) (ha : loss.evaluate X y w = .ok a) (hclip : 2 * steepness c lambda X.rows * a ≤ 10 ^ 20)
    (h : sgd loss clipGrad vanillaUpdate p X y w = .ok w') :
    ∃ K, p.noChange < K ∧ K ≤ p.maxIter ∧ ∃ b, loss.evaluate X y w' = .ok b ∧
      ∀ (u : List ℝ) (m : ℝ), u.length = X.ncols → loss.evaluate X y u = .ok m →
        2 * (∑ i ∈ Finset.range K, eta i) * (b - m) ≤ weightDist w u := by
  obtain ⟨f, rfl⟩ := exists_ofFn w hw
  obtain ⟨i, hi1, hi2, rfl, _⟩ := full_batch loss phi dphi lambda hm p X hX hn y hy hb hp eta he f w' h
  refine ⟨i + 1, by omega, by omega, _, evaluate_objective loss phi dphi lambda hm X hX y hy _, fun u m hu' hm' => ?_⟩
  obtain ⟨g, rfl⟩ := exists_ofFn u hu'
  rw [evaluate_objective loss phi dphi lambda hm X hX y hy, Res.ok.injEq] at hm' ha
  subst hm' ha
  rw [weightDist_ofFn]
  exact run_rate (smooth_data phi dphi lambda c hc ht hu hl X hX y hy) (steepness_nonneg c lambda hc hl _)
    (objective_nonneg phi lambda hl _ fun q hq => hpos q.2 (List.of_mem_zip hq).2) eta h0 h1 _ (i + 1) (fun _ _ => rfl) hclip g

include hc ht hu hl in
theorem final_gradient (hm : IsMean loss phi dphi lambda) (p : Params ℝ) (hnc : p.noChange ≠ 0) (X : DMat ℝ) (hX : X.WF)
    (hn : X.nrows ≠ 0) (y : List ℝ)
    (hy : y.length = X.nrows) (hpos : ∀ a ∈ y, ∀ s, 0 ≤ phi a s) (hb : p.batchSize = X.nrows)
    (hp : ∀ q, p.shuffle = some q → ∀ i, (q i).Perm (List.range X.nrows)) (eta : Nat → ℝ) (he : ∀ i, p.decay i = .ok (eta i))
    (h0 : ∀ i, 0 < eta i) (h1 : ∀ i, eta i * steepness c lambda X.rows ≤ 1) (w w' : List ℝ) (hw : w.length = X.ncols)
    (a : ℝ) (ha : loss.evaluate X y w = .ok a) (hclip : 2 * steepness c lambda X.rows * a ≤ 10 ^ 20)
    (h : sgd loss clipGrad vanillaUpdate p X y w = .ok w') :
    ∃ K, p.noChange ≤ K ∧ K < p.maxIter ∧ ∃ f : Fin X.ncols → ℝ, w' = List.ofFn f ∧
      eta K * ∑ j, gradOf dphi lambda (X.rows.zip y) f j ^ 2 < 2 * p.tol * X.nrows := by
  obtain ⟨f, rfl⟩ := exists_ofFn w hw
  obtain ⟨i, hi1, hi2, rfl, hst⟩ := full_batch loss phi dphi lambda hm p X hX hn y hy hb hp eta he f w' h
  rw [evaluate_objective loss phi dphi lambda hm X hX y hy, Res.ok.injEq] at ha
  subst ha
  have hS := smooth_data phi dphi lambda c hc ht hu hl X hX y hy
  have hL := steepness_nonneg c lambda hc hl X.rows
  refine ⟨i, hi1, hi2, _, rfl, ?_⟩
  obtain ⟨k, hk, hlt⟩ := hst hnc
  have hle := run_le hS eta (fun i => (h0 i).le) (fun i => (h1 i).trans (by norm_num))
    (iterate (gradOf dphi lambda (X.rows.zip y)) eta f) (i + 1) (fun _ _ => rfl)
  set v := iterate (gradOf dphi lambda (X.rows.zip y)) eta f with hv
  have h3 := hle (k + 1) i (by omega) (by omega)
  have h4 : 2 * steepness c lambda X.rows * objective phi lambda (X.rows.zip y) (v i) ≤ 10 ^ 20 :=
    (mul_le_mul_of_nonneg_left (hle 0 i (by omega) (by omega)) (by positivity)).trans hclip
  have hun := unclipped hS hL (objective_nonneg phi lambda hl _ fun q hq => hpos q.2 (List.of_mem_zip hq).2) (v i) h4
  have hnext : v (i + 1) = fun j => v i j - eta i * gradOf dphi lambda (X.rows.zip y) (v i) j := by
    show move _ (eta i) (v i) = _
    funext j
    unfold move
    rw [hun j]
  have h5 := along_gradient hS (eta i) (v i)
  have h6 := grad_after hS hL (eta i) (h0 i) ((h1 i).trans (by norm_num)) (v i)
  rw [← hnext] at h5 h6
  have h7 : 0 ≤ ∑ j, gradOf dphi lambda (X.rows.zip y) (v i) j ^ 2 := Finset.sum_nonneg fun j _ => sq_nonneg _
  have h8 := mul_le_mul_of_nonneg_left h6 (h0 i).le
  have h9 : eta i / 2 * ∑ j, gradOf dphi lambda (X.rows.zip y) (v i) j ^ 2 ≤
      eta i * (1 - eta i * steepness c lambda X.rows / 2) * ∑ j, gradOf dphi lambda (X.rows.zip y) (v i) j ^ 2 :=
    mul_le_mul_of_nonneg_right (by nlinarith [h0 i, h1 i]) h7
  linarith

include ht in
/-- With a ridge term, the objective exceeds its minimum by at most a multiple of the squared gradient. -/
theorem gap_le_gradient {d : Nat} (hl' : 0 < lambda) (l : List (List ℝ × ℝ)) (hne : l.length ≠ 0) (v u : Fin d → ℝ) :
    2 * lambda * (objective phi lambda l v - objective phi lambda l u) ≤ l.length * ∑ j, gradOf dphi lambda l v j ^ 2 := by
  have h1 := meanLoss_tangent phi dphi ht 0 (le_refl _) l u v
  have hn : (0 : ℝ) < l.length := by positivity
  have h2 : ∀ j, gradOf dphi lambda l v j = gradOf dphi 0 l v j + v j / l.length * lambda := by
    intro j; simp [gradOf]
  have h3 : lambda * ridgeTerm l.length u = lambda * ridgeTerm l.length v + ∑ j, (v j / l.length * lambda) * (u j - v j) +
      lambda / l.length / 2 * ∑ j, (u j - v j) ^ 2 := by
    unfold ridgeTerm
    rw [Finset.sum_div, Finset.sum_div, Finset.mul_sum, Finset.mul_sum, Finset.mul_sum, ← Finset.sum_add_distrib,
      ← Finset.sum_add_distrib]
    refine Finset.sum_congr rfl fun j _ => ?_
    field_simp
    ring
  have h4 : ∑ j, gradOf dphi lambda l v j * (u j - v j) =
      ∑ j, gradOf dphi 0 l v j * (u j - v j) + ∑ j, (v j / l.length * lambda) * (u j - v j) := by
    rw [← Finset.sum_add_distrib]
    exact Finset.sum_congr rfl fun j _ => by rw [h2]; ring
  have h5 : -(l.length / (2 * lambda) * ∑ j, gradOf dphi lambda l v j ^ 2) ≤
      ∑ j, gradOf dphi lambda l v j * (u j - v j) + lambda / l.length / 2 * ∑ j, (u j - v j) ^ 2 := by
    rw [Finset.mul_sum, Finset.mul_sum, ← Finset.sum_neg_distrib, ← Finset.sum_add_distrib]
    refine Finset.sum_le_sum fun j _ => ?_
    have h6 : gradOf dphi lambda l v j * (u j - v j) + lambda / l.length / 2 * (u j - v j) ^ 2 -
        -(l.length / (2 * lambda) * gradOf dphi lambda l v j ^ 2) =
        l.length / (2 * lambda) * (gradOf dphi lambda l v j + lambda / l.length * (u j - v j)) ^ 2 := by
      field_simp
      ring
    have h7 : 0 ≤ l.length / (2 * lambda) * (gradOf dphi lambda l v j + lambda / l.length * (u j - v j)) ^ 2 := by positivity
    linarith
  have h8 : objective phi lambda l v - objective phi lambda l u ≤ l.length / (2 * lambda) * ∑ j, gradOf dphi lambda l v j ^ 2 := by
    unfold objective
    linarith
  have h9 := mul_le_mul_of_nonneg_left h8 (show 0 ≤ 2 * lambda by positivity)
  have h10 : 2 * lambda * (l.length / (2 * lambda) * ∑ j, gradOf dphi lambda l v j ^ 2) = l.length * ∑ j, gradOf dphi lambda l v j ^ 2 := by
    field_simp
  linarith

include hc ht hu hl in
theorem small_gradient (hm : IsMean loss phi dphi lambda) (p : Params ℝ) (hnc : p.noChange ≠ 0) (X : DMat ℝ) (hX : X.WF)
    (hn : X.nrows ≠ 0) (y : List ℝ)
    (hy : y.length = X.nrows) (hpos : ∀ a ∈ y, ∀ s, 0 ≤ phi a s) (hb : p.batchSize = X.nrows)
    (hp : ∀ q, p.shuffle = some q → ∀ i, (q i).Perm (List.range X.nrows)) (eta : Nat → ℝ) (he : ∀ i, p.decay i = .ok (eta i))
    (h0 : ∀ i, 0 < eta i) (h1 : ∀ i, eta i * steepness c lambda X.rows ≤ 1) (w w' : List ℝ) (hw : w.length = X.ncols)
    (a : ℝ) (ha : loss.evaluate X y w = .ok a) (hclip : 2 * steepness c lambda X.rows * a ≤ 10 ^ 20)
    (h : sgd loss clipGrad vanillaUpdate p X y w = .ok w') :
    ∃ K, p.noChange ≤ K ∧ K < p.maxIter ∧ ∃ g, loss.gradient X y w' = .ok g ∧
      eta K * (g.map fun x => x ^ 2).sum < 2 * p.tol * X.nrows := by
  obtain ⟨K, k1, k2, f, rfl, hg⟩ := final_gradient loss phi dphi lambda c hc ht hu hl hm p hnc X hX hn y hy hpos hb hp eta he h0 h1 w
    w' hw a ha hclip h
  refine ⟨K, k1, k2, _, hm.gradient X hX y hy f, ?_⟩
  rw [List.map_ofFn, List.sum_ofFn]
  exact hg

include hc ht hu in
theorem accuracy (hl' : 0 < lambda) (hm : IsMean loss phi dphi lambda) (p : Params ℝ) (hnc : p.noChange ≠ 0) (X : DMat ℝ) (hX : X.WF)
    (hn : X.nrows ≠ 0) (y : List ℝ)
    (hy : y.length = X.nrows) (hpos : ∀ a ∈ y, ∀ s, 0 ≤ phi a s) (hb : p.batchSize = X.nrows)
    (hp : ∀ q, p.shuffle = some q → ∀ i, (q i).Perm (List.range X.nrows)) (eta : Nat → ℝ) (he : ∀ i, p.decay i = .ok (eta i))
    (h0 : ∀ i, 0 < eta i) (h1 : ∀ i, eta i * steepness c lambda X.rows ≤ 1) (w w' : List ℝ) (hw : w.length = X.ncols)
    (a : ℝ) (ha : loss.evaluate X y w = .ok a) (hclip : 2 * steepness c lambda X.rows * a ≤ 10 ^ 20)
    (h : sgd loss clipGrad vanillaUpdate p X y w = .ok w') :
    ∃ K, p.noChange ≤ K ∧ K < p.maxIter ∧ ∃ b, loss.evaluate X y w' = .ok b ∧
      ∀ (u : List ℝ) (m : ℝ), u.length = X.ncols → loss.evaluate X y u = .ok m → lambda * eta K * (b - m) < p.tol * X.nrows ^ 2 := by
  obtain ⟨K, k1, k2, f, rfl, hg⟩ := final_gradient loss phi dphi lambda c hc ht hu hl'.le hm p hnc X hX hn y hy hpos hb hp eta he h0 h1 w
    w' hw a ha hclip h
  have hzl : (X.rows.zip y).length = X.nrows := by
    rw [List.length_zip, hy]; exact Nat.min_self _
  refine ⟨K, k1, k2, _, evaluate_objective loss phi dphi lambda hm X hX y hy f, fun u m hu' hm' => ?_⟩
  obtain ⟨g, rfl⟩ := exists_ofFn u hu'
  rw [evaluate_objective loss phi dphi lambda hm X hX y hy, Res.ok.injEq] at hm'
  subst hm'
  have h2 := gap_le_gradient phi dphi lambda ht hl' (X.rows.zip y) (by rw [hzl]; exact hn) f g
  rw [hzl] at h2
  have h3 := mul_le_mul_of_nonneg_left h2 (h0 K).le
  have hnpos : (0 : ℝ) < X.nrows := by positivity
  have h4 := mul_lt_mul_of_pos_left hg hnpos
  nlinarith

end Generic

end Descent

section MSE
variable (mu : ℝ) (hmu : 0 ≤ mu) (p : Params ℝ) (X : DMat ℝ) (hX : X.WF) (hn : X.nrows ≠ 0) (y : List ℝ) (hy : y.length = X.nrows)
  (hb : p.batchSize = X.nrows) (hp : ∀ q, p.shuffle = some q → ∀ i, (q i).Perm (List.range X.nrows)) (eta : Nat → ℝ)
  (he : ∀ i, p.decay i = .ok (eta i)) (w w' : List ℝ) (hw : w.length = X.ncols)
  (h : sgd ⟨mseEvaluate mu, mseGradient mu⟩ clipGrad vanillaUpdate p X y w = .ok w')

theorem mse_upper (y s t : ℝ) : halfSquare y t ≤ halfSquare y s + (s - y) * (t - s) + 1 / 2 * (t - s) ^ 2 := halfSquare_upper y s t

include hmu hX hn hy hb hp he hw h in
/-- C106: least squares with all samples in one batch: if no learning rate exceeds twice the inverse of the steepness, the
published weights have no larger loss than the initial ones. -/
theorem C106_mse_descends (h0 : ∀ i, 0 ≤ eta i) (h2 : ∀ i, eta i * steepness 1 mu X.rows ≤ 2) :
    ∃ a b, mseEvaluate mu X y w = .ok a ∧ mseEvaluate mu X y w' = .ok b ∧ b ≤ a :=
  descends ⟨mseEvaluate mu, mseGradient mu⟩ halfSquare (fun a s => s - a) mu 1 (by norm_num) halfSquare_tangent mse_upper hmu
    (isMean_mse mu) p X hX hn y hy hb hp eta he h0 h2 w w' hw h

include hmu hX hn hy hb hp he hw h in
/-- C106: least squares with all samples in one batch, learning rates up to the inverse of the steepness and a start from which
no gradient is clipped: the loss of the published weights exceeds the loss of any other weights by at most the squared distance
of these from the start, divided by twice the sum of the learning rates of more than `num_iters_no_change` epochs. -/
theorem C106_mse_rate (h0 : ∀ i, 0 ≤ eta i) (h1 : ∀ i, eta i * steepness 1 mu X.rows ≤ 1) (a : ℝ)
    (ha : mseEvaluate mu X y w = .ok a) (hclip : 2 * steepness 1 mu X.rows * a ≤ 10 ^ 20) :
    ∃ K, p.noChange < K ∧ K ≤ p.maxIter ∧ ∃ b, mseEvaluate mu X y w' = .ok b ∧
      ∀ (u : List ℝ) (m : ℝ), u.length = X.ncols → mseEvaluate mu X y u = .ok m →
        2 * (∑ i ∈ Finset.range K, eta i) * (b - m) ≤ weightDist w u :=
  rate ⟨mseEvaluate mu, mseGradient mu⟩ halfSquare (fun a s => s - a) mu 1 (by norm_num) halfSquare_tangent mse_upper hmu
    (isMean_mse mu) p X hX hn y hy (fun a _ s => by unfold halfSquare; positivity) hb hp eta he h0 h1 w w' hw a ha hclip h

include hmu hX hn hy hb hp he hw h in
/-- C106: with positive learning rates, the squared gradient at the published weights is small compared with the tolerance. -/
theorem C106_mse_gradient (hnc : p.noChange ≠ 0) (h0 : ∀ i, 0 < eta i) (h1 : ∀ i, eta i * steepness 1 mu X.rows ≤ 1)
    (a : ℝ) (ha : mseEvaluate mu X y w = .ok a) (hclip : 2 * steepness 1 mu X.rows * a ≤ 10 ^ 20) :
    ∃ K, p.noChange ≤ K ∧ K < p.maxIter ∧ ∃ g, mseGradient mu X y w' = .ok g ∧
      eta K * (g.map fun x => x ^ 2).sum < 2 * p.tol * X.nrows :=
  small_gradient ⟨mseEvaluate mu, mseGradient mu⟩ halfSquare (fun a s => s - a) mu 1 (by norm_num) halfSquare_tangent mse_upper hmu
    (isMean_mse mu) p hnc X hX hn y hy (fun a _ s => by unfold halfSquare; positivity) hb hp eta he h0 h1 w w' hw a ha hclip h

include hX hn hy hb hp he hw h in
/-- C106: with a ridge term and positive learning rates, the distance of the loss to the smallest possible loss is small compared
with the tolerance. -/
theorem C106_mse_accuracy (hmu : 0 < mu) (hnc : p.noChange ≠ 0) (h0 : ∀ i, 0 < eta i) (h1 : ∀ i, eta i * steepness 1 mu X.rows ≤ 1)
    (a : ℝ) (ha : mseEvaluate mu X y w = .ok a) (hclip : 2 * steepness 1 mu X.rows * a ≤ 10 ^ 20) :
    ∃ K, p.noChange ≤ K ∧ K < p.maxIter ∧ ∃ b, mseEvaluate mu X y w' = .ok b ∧
      ∀ (u : List ℝ) (m : ℝ), u.length = X.ncols → mseEvaluate mu X y u = .ok m → mu * eta K * (b - m) < p.tol * X.nrows ^ 2 :=
  accuracy ⟨mseEvaluate mu, mseGradient mu⟩ halfSquare (fun a s => s - a) mu 1 (by norm_num) halfSquare_tangent mse_upper hmu
    (isMean_mse mu) p hnc X hX hn y hy (fun a _ s => by unfold halfSquare; positivity) hb hp eta he h0 h1 w w' hw a ha hclip h

end MSE

/-- Example for the theorems on least squares: two samples, ridge parameter 1, rate 1/2, tolerance 1/100. Weights are published
after four epochs. -/
example : sgd ⟨mseEvaluate (1 : ℚ), mseGradient 1⟩ clipGrad vanillaUpdate
      { maxIter := 50, batchSize := 2, noChange := 2, tol := 1 / 100, decay := fun _ => .ok (1 / 2), shuffle := none }
      ⟨1, [[1], [-1]]⟩ [2, -2] [0] = .ok [85 / 64] ∧
    mseEvaluate (1 : ℚ) ⟨1, [[1], [-1]]⟩ [2, -2] [0] = .ok 2 := by decide +kernel

/-- The remaining hypotheses for this data: the steepness is 3/2. -/
example : steepness 1 1 [[1], [-1]] = 3 / 2 ∧ (1 : ℝ) / 2 * (3 / 2) ≤ 1 ∧ 2 * (3 / 2) * 2 ≤ (10 : ℝ) ^ 20 := by
  refine ⟨?_, by norm_num, by norm_num⟩
  norm_num [steepness, featureMass]

/-- The bound on the rate in `C106_mse_descends` is needed: with rate 2 instead of at most 4/3 the loss grows from 2 to 6. -/
example : sgd ⟨mseEvaluate (1 : ℚ), mseGradient 1⟩ clipGrad vanillaUpdate
      { maxIter := 50, batchSize := 2, noChange := 0, tol := 1 / 100, decay := fun _ => .ok 2, shuffle := none }
      ⟨1, [[1], [-1]]⟩ [2, -2] [0] = .ok [4] ∧
    mseEvaluate (1 : ℚ) ⟨1, [[1], [-1]]⟩ [2, -2] [4] = .ok 6 := by decide +kernel

section Logistic
variable (lambda l1Ratio : ℝ) (penalty : String) (hpen : penalty = "l2" ∨ penalty = "None") (hlam : 0 ≤ lambda) (p : Params ℝ)
  (lbfgs : LossFn ℝ (List ℝ) → DMat ℝ → List ℝ → List ℝ → Res (List ℝ)) (X : DMat ℝ) (hX : X.WF)
  (hn : X.nrows ≠ 0) (y : List ℝ) (hy : y.length = X.nrows)
  (hb : p.batchSize = X.nrows) (hp : ∀ q, p.shuffle = some q → ∀ i, (q i).Perm (List.range X.nrows)) (eta : Nat → ℝ)
  (he : ∀ i, p.decay i = .ok (eta i)) (w w' : List ℝ) (hw : w.length = X.ncols + 1)
  (h : fitLogistic lambda l1Ratio penalty "sgd" p lbfgs X y w = .ok w')

include hpen h in
theorem fitLogistic_sgd : sgd ⟨logEvaluate lambda, logGradient lambda⟩ clipGrad vanillaUpdate p (withOnes X) y w = .ok w' := by
  unfold fitLogistic at h
  dsimp only at h
  rwa [if_pos hpen, if_pos rfl] at h

theorem withOnes_nrows (X : DMat ℝ) : (withOnes X).nrows = X.nrows := by simp [withOnes, DMat.nrows]

include hpen hlam hX hn hy hb hp he hw h in
/-- C106: logistic regression with solver `sgd` and all samples in one batch: if no learning rate exceeds twice the inverse of
the steepness, the fitted weights have no larger log loss than the initial ones. -/
theorem C106_log_descends (h0 : ∀ i, 0 ≤ eta i)
    (h2 : ∀ i, eta i * steepness (1 / 4) lambda (X.rows.map fun r => r ++ [1]) ≤ 2) :
    ∃ a b, logEvaluate lambda (withOnes X) y w = .ok a ∧ logEvaluate lambda (withOnes X) y w' = .ok b ∧ b ≤ a :=
  descends ⟨logEvaluate lambda, logGradient lambda⟩ crossEntropy (fun a s => Real.sigmoid s - a) lambda (1 / 4) (by norm_num)
    crossEntropy_tangent crossEntropy_upper hlam (isMean_log lambda) p (withOnes X) (withOnes_wf X hX)
    (by rw [withOnes_nrows]; exact hn) y (by rw [withOnes_nrows]; exact hy) (by rw [withOnes_nrows]; exact hb)
    (by rw [withOnes_nrows]; exact hp) eta he h0 h2 w w' hw (fitLogistic_sgd lambda l1Ratio penalty hpen p lbfgs X y w w' h)

include hpen hlam hX hn hy hb hp he hw h in
/-- C106: logistic regression with solver `sgd`, labels between 0 and 1, all samples in one batch, learning rates up to the
inverse of the steepness and a start from which no gradient is clipped: distance of the log loss of the fitted weights from that
of any other weights. -/
theorem C106_log_rate (hlab : ∀ a ∈ y, 0 ≤ a ∧ a ≤ 1) (h0 : ∀ i, 0 ≤ eta i)
    (h1 : ∀ i, eta i * steepness (1 / 4) lambda (X.rows.map fun r => r ++ [1]) ≤ 1) (a : ℝ)
    (ha : logEvaluate lambda (withOnes X) y w = .ok a)
    (hclip : 2 * steepness (1 / 4) lambda (X.rows.map fun r => r ++ [1]) * a ≤ 10 ^ 20) :
    ∃ K, p.noChange < K ∧ K ≤ p.maxIter ∧ ∃ b, logEvaluate lambda (withOnes X) y w' = .ok b ∧
      ∀ (u : List ℝ) (m : ℝ), u.length = X.ncols + 1 → logEvaluate lambda (withOnes X) y u = .ok m →
        2 * (∑ i ∈ Finset.range K, eta i) * (b - m) ≤ weightDist w u :=
  rate ⟨logEvaluate lambda, logGradient lambda⟩ crossEntropy (fun a s => Real.sigmoid s - a) lambda (1 / 4) (by norm_num)
    crossEntropy_tangent crossEntropy_upper hlam (isMean_log lambda) p (withOnes X) (withOnes_wf X hX)
    (by rw [withOnes_nrows]; exact hn) y (by rw [withOnes_nrows]; exact hy)
    (fun a ha s => crossEntropy_nonneg a s (hlab a ha).1 (hlab a ha).2) (by rw [withOnes_nrows]; exact hb)
    (by rw [withOnes_nrows]; exact hp) eta he h0 h1 w w' hw a ha hclip
    (fitLogistic_sgd lambda l1Ratio penalty hpen p lbfgs X y w w' h)

include hpen hlam hX hn hy hb hp he hw h in
/-- C106: with positive learning rates, the squared gradient of the log loss at the fitted weights is small compared with the
tolerance. -/
theorem C106_log_gradient (hnc : p.noChange ≠ 0) (hlab : ∀ a ∈ y, 0 ≤ a ∧ a ≤ 1) (h0 : ∀ i, 0 < eta i)
    (h1 : ∀ i, eta i * steepness (1 / 4) lambda (X.rows.map fun r => r ++ [1]) ≤ 1) (a : ℝ)
    (ha : logEvaluate lambda (withOnes X) y w = .ok a)
    (hclip : 2 * steepness (1 / 4) lambda (X.rows.map fun r => r ++ [1]) * a ≤ 10 ^ 20) :
    ∃ K, p.noChange ≤ K ∧ K < p.maxIter ∧ ∃ g, logGradient lambda (withOnes X) y w' = .ok g ∧
      eta K * (g.map fun x => x ^ 2).sum < 2 * p.tol * X.nrows := by
  have := small_gradient ⟨logEvaluate lambda, logGradient lambda⟩ crossEntropy (fun a s => Real.sigmoid s - a) lambda (1 / 4)
    (by norm_num) crossEntropy_tangent crossEntropy_upper hlam (isMean_log lambda) p hnc (withOnes X) (withOnes_wf X hX)
    (by rw [withOnes_nrows]; exact hn) y (by rw [withOnes_nrows]; exact hy)
    (fun a ha s => crossEntropy_nonneg a s (hlab a ha).1 (hlab a ha).2) (by rw [withOnes_nrows]; exact hb)
    (by rw [withOnes_nrows]; exact hp) eta he h0 h1 w w' hw a ha hclip
    (fitLogistic_sgd lambda l1Ratio penalty hpen p lbfgs X y w w' h)
  rwa [withOnes_nrows] at this

include hpen hX hn hy hb hp he hw h in
/-- C106: with a ridge term and positive learning rates, the distance of the log loss to the smallest possible log loss is small
compared with the tolerance. -/
theorem C106_log_accuracy (hlam : 0 < lambda) (hnc : p.noChange ≠ 0) (hlab : ∀ a ∈ y, 0 ≤ a ∧ a ≤ 1) (h0 : ∀ i, 0 < eta i)
    (h1 : ∀ i, eta i * steepness (1 / 4) lambda (X.rows.map fun r => r ++ [1]) ≤ 1) (a : ℝ)
    (ha : logEvaluate lambda (withOnes X) y w = .ok a)
    (hclip : 2 * steepness (1 / 4) lambda (X.rows.map fun r => r ++ [1]) * a ≤ 10 ^ 20) :
    ∃ K, p.noChange ≤ K ∧ K < p.maxIter ∧ ∃ b, logEvaluate lambda (withOnes X) y w' = .ok b ∧
      ∀ (u : List ℝ) (m : ℝ), u.length = X.ncols + 1 → logEvaluate lambda (withOnes X) y u = .ok m →
        lambda * eta K * (b - m) < p.tol * X.nrows ^ 2 := by
  have := accuracy ⟨logEvaluate lambda, logGradient lambda⟩ crossEntropy (fun a s => Real.sigmoid s - a) lambda (1 / 4) (by norm_num)
    crossEntropy_tangent crossEntropy_upper hlam (isMean_log lambda) p hnc (withOnes X) (withOnes_wf X hX)
    (by rw [withOnes_nrows]; exact hn) y (by rw [withOnes_nrows]; exact hy)
    (fun a ha s => crossEntropy_nonneg a s (hlab a ha).1 (hlab a ha).2) (by rw [withOnes_nrows]; exact hb)
    (by rw [withOnes_nrows]; exact hp) eta he h0 h1 w w' hw a ha hclip
    (fitLogistic_sgd lambda l1Ratio penalty hpen p lbfgs X y w w' h)
  rwa [withOnes_nrows] at this

end Logistic

/-- Example for the theorems on the log loss: two samples with labels 1 and 0; together with the column of ones the steepness is
(4 / 4 + 1) / 2 = 1, and from weights zero the loss log 2 is far below the bound. -/
example : steepness (1 / 4) 1 (([[1], [-1]] : List (List ℝ)).map fun r => r ++ [1]) = 1 := by
  norm_num [steepness, featureMass]

example : ∃ a, logEvaluate 1 (withOnes ⟨1, [[1], [-1]]⟩) [1, 0] [0, 0] = .ok a ∧ 2 * 1 * a ≤ (10 : ℝ) ^ 20 := by
  refine ⟨Real.log 2, ?_, ?_⟩
  · have := logEvaluate_eq 1 (withOnes ⟨1, [[1], [-1]]⟩) (withOnes_wf _ (by intro r hr; fin_cases hr <;> rfl)) [1, 0] rfl fun _ => 0
    rw [show List.ofFn (fun _ : Fin (withOnes (⟨1, [[1], [-1]]⟩ : DMat ℝ)).ncols => (0 : ℝ)) = [0, 0] by simp [withOnes, List.ofFn_succ]] at this
    rw [this]
    congr 1
    have hs : Real.sigmoid 0 = 1 / 2 := by norm_num [Real.sigmoid]
    have h2 : (1 : ℝ) - 1 / 2 = 1 / 2 := by norm_num
    have hl : Real.log (1 / 2) = -Real.log 2 := by rw [one_div, Real.log_inv]
    have hc : ∀ a : ℝ, crossEntropy a 0 = Real.log 2 := by
      intro a
      rw [crossEntropy, hs, h2, hl]
      ring
    have hsc : ∀ (d : Nat) (x : List ℝ), score x (fun _ : Fin d => (0 : ℝ)) = 0 := by
      intro d x; simp [score]
    unfold meanLoss ridgeTerm
    simp only [hsc, hc, withOnes]
    norm_num
  · have : Real.log 2 ≤ 1 := by have := Real.log_le_sub_one_of_pos (show (0 : ℝ) < 2 by norm_num); linarith
    linarith [show (2 : ℝ) ≤ 10 ^ 20 by norm_num]

end OpenML
