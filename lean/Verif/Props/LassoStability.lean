import Verif.Lemmas.LassoStability
import Verif.Props.CoordinateRate

/-!
# How the fitted values of coordinate descent depend on the run and on the targets (C178)
-/

namespace OpenML

open Spec Loss SGD SCD LinearFit Descent

namespace LassoStability

theorem lossSum_zero {d : Nat} : ∀ (rows : List (List ℝ)) (y : List ℝ), y.length = rows.length →
    lossSum rows y (fun _ : Fin d => 0) = (y.map fun a => a ^ 2).sum / 2
  | [], [], _ => by simp [lossSum]
  | r :: rows, a :: y, hy => by
    have ih := lossSum_zero (d := d) rows y (by simpa using hy)
    simp only [lossSum, List.map_cons, List.zip_cons_cons, List.sum_cons, halfSquare, score, mul_zero, Finset.sum_const_zero,
      sub_zero] at ih ⊢
    linarith
  | [], _ :: _, hy => by simp at hy
  | _ :: _, [], hy => by simp at hy

theorem mse_value (X : DMat ℝ) (hX : X.WF) (y : List ℝ) (hy : y.length = X.nrows) (w : Fin X.ncols → ℝ) :
    mseEvaluate 0 X y (List.ofFn w) = .ok (lossSum X.rows y w / X.rows.length) := by
  have h := (isMean_mse 0).evaluate X hX y hy w
  simp only [zero_mul, add_zero] at h
  rw [h]
  unfold meanLoss lossSum
  rw [List.length_zip, hy, DMat.nrows, Nat.min_self]

/-- What a fit of the lasso gives. -/
theorem fitted (l1Ratio lambda : ℝ) (hb : 0 < l1Ratio) (hl : 0 < lambda) (shuffle : Option (Nat → List Nat)) (maxIter : Nat)
    (hm : 0 < maxIter) (X : DMat ℝ) (hX : X.WF) (hn : X.nrows ≠ 0) (hd : 0 < X.ncols) (y : List ℝ) (hy : y.length = X.nrows)
    (hp : ∀ p, shuffle = some p → ∀ i, (p i).Perm (List.range X.nrows))
    (hcurv : ∀ j < X.ncols, (X.rows.map fun r => r.getD j 0 ^ 2).sum / X.nrows ≤ l1Ratio) :
    ∃ f : Fin X.ncols → ℝ, fitLasso false l1Ratio lambda maxIter shuffle X y = .ok (List.ofFn f) ∧
      predictLabel false (List.ofFn f) X = .ok (X.rows.map fun r => score r f) ∧
      ∀ u : Fin X.ncols → ℝ, lossSum X.rows y f / X.rows.length + lambda * ∑ j, |f j| ≤
        lossSum X.rows y u / X.rows.length + lambda * ∑ j, |u j| + lassoExcess X.ncols l1Ratio lambda maxIter y := by
  obtain ⟨w, a, b, h1, h2, h3, h4⟩ := C107_lasso l1Ratio lambda hb hl shuffle maxIter X hX hn hd y hy hp hcurv
  obtain ⟨w', h1', hw⟩ := C57_lasso_no_intercept l1Ratio lambda maxIter shuffle X hX hd y hy hp
  rw [h1] at h1'
  cases h1'
  obtain ⟨f, rfl⟩ := exists_ofFn w hw
  have ha : a = halfMeanSquare y := by
    have e : List.replicate X.ncols (0 : ℝ) = List.ofFn (fun _ : Fin X.ncols => (0 : ℝ)) := by simp
    rw [e, mse_value X hX y hy, Res.ok.injEq, lossSum_zero X.rows y hy] at h2
    rw [← h2, halfMeanSquare, hy, DMat.nrows, div_div]
  have hb' : b = lossSum X.rows y f / X.rows.length := by
    rw [mse_value X hX y hy, Res.ok.injEq] at h3
    exact h3.symm
  refine ⟨f, h1, ?_, fun u => ?_⟩
  · simp only [predictLabel, Bool.false_eq_true, if_false]
    exact Loss.scores_eq X hX f
  · have h := h4 (List.ofFn u) _ (by simp) (mse_value X hX y hy u)
    rw [sum_ofFn_abs, sum_ofFn_abs, ha, hb'] at h
    have hpos : (0 : ℝ) < maxIter := by exact_mod_cast hm
    unfold lassoExcess
    rw [← sub_le_iff_le_add', le_div_iff₀ hpos]
    linarith

/-- The excess becomes small. -/
theorem lassoExcess_small (d : Nat) (beta lambda : ℝ) (y : List ℝ) (e : ℝ) (he : 0 < e) :
    ∃ N, 0 < N ∧ ∀ n, N ≤ n → lassoExcess d beta lambda n y ≤ e := by
  obtain ⟨N, hN⟩ := exists_nat_gt (2 * d * max (halfMeanSquare y) (beta * (2 * (halfMeanSquare y / lambda)) ^ 2) / e)
  refine ⟨N + 1, Nat.succ_pos _, fun n hn => ?_⟩
  have hpos : (0 : ℝ) < n := by exact_mod_cast (Nat.succ_pos N).trans_le hn
  have hle : (N : ℝ) ≤ n := by exact_mod_cast (Nat.le_succ N).trans hn
  unfold lassoExcess
  rw [div_le_iff₀ hpos]
  rw [div_lt_iff₀ he] at hN
  nlinarith

end LassoStability

open LassoStability

section
variable (l1Ratio l1Ratio' lambda : ℝ) (hb : 0 < l1Ratio) (hb' : 0 < l1Ratio') (hl : 0 < lambda) (shuffle shuffle' : Option (Nat → List Nat))
  (maxIter maxIter' : Nat) (hm : 0 < maxIter) (hm' : 0 < maxIter') (X : DMat ℝ) (hX : X.WF) (hn : X.nrows ≠ 0) (hd : 0 < X.ncols)
  (y y' : List ℝ) (hy : y.length = X.nrows) (hy' : y'.length = X.nrows)
  (hp : ∀ p, shuffle = some p → ∀ i, (p i).Perm (List.range X.nrows))
  (hp' : ∀ p, shuffle' = some p → ∀ i, (p i).Perm (List.range X.nrows))
  (hcurv : ∀ j < X.ncols, (X.rows.map fun r => r.getD j 0 ^ 2).sum / X.nrows ≤ l1Ratio)
  (hcurv' : ∀ j < X.ncols, (X.rows.map fun r => r.getD j 0 ^ 2).sum / X.nrows ≤ l1Ratio')
include hb hb' hl hm hm' hX hn hd hy hp hp' hcurv hcurv'

/-- C178: two fits of a `LassoRegression` without intercept on the same data, with any orders, numbers of iterations and step constants
not below the mean square of any feature: the mean squared difference of the answers on the training samples is at most four times the
sum of what the objectives may exceed the minimum. This holds although the weights may differ for ever if features depend on each
other. -/
theorem C178_same : ∃ w w' p p', fitLasso false l1Ratio lambda maxIter shuffle X y = .ok w ∧
    fitLasso false l1Ratio' lambda maxIter' shuffle' X y = .ok w' ∧ predictLabel false w X = .ok p ∧ predictLabel false w' X = .ok p' ∧
    meanSquaredGap p p' ≤ 4 * (lassoExcess X.ncols l1Ratio lambda maxIter y + lassoExcess X.ncols l1Ratio' lambda maxIter' y) := by
  obtain ⟨f, h1, h2, h3⟩ := fitted l1Ratio lambda hb hl shuffle maxIter hm X hX hn hd y hy hp hcurv
  obtain ⟨g, k1, k2, k3⟩ := fitted l1Ratio' lambda hb' hl shuffle' maxIter' hm' X hX hn hd y hy hp' hcurv'
  refine ⟨_, _, _, _, h1, k1, h2, k2, ?_⟩
  unfold meanSquaredGap
  rw [List.length_map]
  exact near_same X.rows hn y hy lambda hl.le f g _ _ h3 k3

/-- Example for C178: step constants 1 and 2 on two equal features. The answers after one and three iterations are 5/2 and 35/16 for the
first sample, the limit is 5/2. -/
example : fitLasso false (1 : ℚ) (1 / 2) 1 none ⟨2, [[1, 1], [-1, -1]]⟩ [3, -3] = .ok [5 / 2, 0] ∧
    fitLasso false (2 : ℚ) (1 / 2) 3 none ⟨2, [[1, 1], [-1, -1]]⟩ [3, -3] = .ok [35 / 16, 0] ∧
    predictLabel false [5 / 2, 0] (⟨2, [[1, 1], [-1, -1]]⟩ : DMat ℚ) = .ok [5 / 2, -5 / 2] ∧
    predictLabel false [35 / 16, 0] (⟨2, [[1, 1], [-1, -1]]⟩ : DMat ℚ) = .ok [35 / 16, -35 / 16] := by decide +kernel

/-- The same data meet the hypotheses, also with the samples in exchanged order in every iteration. -/
example : ∃ w w' p p', fitLasso false (1 : ℝ) (1 / 2) 100 none ⟨2, [[1, 1], [-1, -1]]⟩ [3, -3] = .ok w ∧
    fitLasso false (2 : ℝ) (1 / 2) 300 (some fun _ => [1, 0]) ⟨2, [[1, 1], [-1, -1]]⟩ [3, -3] = .ok w' ∧
    predictLabel false w (⟨2, [[1, 1], [-1, -1]]⟩ : DMat ℝ) = .ok p ∧ predictLabel false w' (⟨2, [[1, 1], [-1, -1]]⟩ : DMat ℝ) = .ok p' ∧
    meanSquaredGap p p' ≤ 4 * (lassoExcess 2 1 (1 / 2) 100 [3, -3] + lassoExcess 2 2 (1 / 2) 300 [3, -3]) := by
  refine C178_same 1 2 (1 / 2) (by norm_num) (by norm_num) (by norm_num) none (some fun _ => [1, 0]) 100 300 (by norm_num) (by norm_num)
    ⟨2, [[1, 1], [-1, -1]]⟩ ?_ (by simp [DMat.nrows]) (by norm_num) [3, -3] rfl (fun p h => by simp at h) ?_ ?_ ?_
  · intro r hr
    simp only [List.mem_cons, List.not_mem_nil, or_false] at hr
    obtain rfl | rfl := hr <;> rfl
  · intro p h i
    simp only [Option.some.injEq] at h
    subst h
    exact List.Perm.swap 0 1 []
  · intro j hj
    obtain rfl | rfl : j = 0 ∨ j = 1 := by simp only at hj; omega
    · norm_num [DMat.nrows]
    · norm_num [DMat.nrows]
  · intro j hj
    obtain rfl | rfl : j = 0 ∨ j = 1 := by simp only at hj; omega
    · norm_num [DMat.nrows]
    · norm_num [DMat.nrows]

include hy'

/-- C178: fits on the same samples with different targets: apart from the excess of the objectives, the mean squared difference of the
answers on the training samples is at most that of the targets, for every `t` between 0 and 1 that divides the bound between the
two. -/
theorem C178_targets (t : ℝ) (h0 : 0 < t) (h1 : t < 1) :
    ∃ w w' p p', fitLasso false l1Ratio lambda maxIter shuffle X y = .ok w ∧
      fitLasso false l1Ratio' lambda maxIter' shuffle' X y' = .ok w' ∧ predictLabel false w X = .ok p ∧ predictLabel false w' X = .ok p' ∧
      meanSquaredGap p p' ≤ meanSquaredGap y y' / (1 - t) ^ 2 +
        2 * (lassoExcess X.ncols l1Ratio lambda maxIter y + lassoExcess X.ncols l1Ratio' lambda maxIter' y') / (t * (1 - t)) := by
  obtain ⟨f, h1', h2, h3⟩ := fitted l1Ratio lambda hb hl shuffle maxIter hm X hX hn hd y hy hp hcurv
  obtain ⟨g, k1, k2, k3⟩ := fitted l1Ratio' lambda hb' hl shuffle' maxIter' hm' X hX hn hd y' hy' hp' hcurv'
  refine ⟨_, _, _, _, h1', k1, h2, k2, ?_⟩
  unfold meanSquaredGap
  rw [List.length_map, hy]
  exact near X.rows hn y y' hy hy' lambda hl.le t h0 h1 f g _ _ h3 k3

end

/-- Example for `C178_targets` and `C178_limit`: the data of the example for C107 with other targets. The mean squared difference of the
targets is 5/2, that of the answers 1/4. -/
example : fitLasso false (1 : ℚ) (1 / 2) 2 none ⟨2, [[1, 0], [-1, 1]]⟩ [3, -3] = .ok [5 / 2, 0] ∧
    fitLasso false (1 : ℚ) (1 / 2) 2 none ⟨2, [[1, 0], [-1, 1]]⟩ [4, -1] = .ok [2, 0] ∧
    predictLabel false [5 / 2, 0] (⟨2, [[1, 0], [-1, 1]]⟩ : DMat ℚ) = .ok [5 / 2, -5 / 2] ∧
    predictLabel false [2, 0] (⟨2, [[1, 0], [-1, 1]]⟩ : DMat ℚ) = .ok [2, -2] := by decide +kernel

/-- C178: in the limit of many iterations the lasso does not enlarge changes of the targets: for every `eps > 0` there is a number of
iterations from which on, whatever the orders of the samples, the mean squared difference of the answers on the training samples is at
most that of the targets plus `eps`. -/
theorem C178_limit (l1Ratio lambda : ℝ) (hb : 0 < l1Ratio) (hl : 0 < lambda) (X : DMat ℝ) (hX : X.WF) (hn : X.nrows ≠ 0)
    (hd : 0 < X.ncols) (y y' : List ℝ) (hy : y.length = X.nrows) (hy' : y'.length = X.nrows)
    (hcurv : ∀ j < X.ncols, (X.rows.map fun r => r.getD j 0 ^ 2).sum / X.nrows ≤ l1Ratio) (eps : ℝ) (he : 0 < eps) :
    ∃ N, ∀ maxIter maxIter', N ≤ maxIter → N ≤ maxIter' → ∀ shuffle shuffle' : Option (Nat → List Nat),
      (∀ p, shuffle = some p → ∀ i, (p i).Perm (List.range X.nrows)) → (∀ p, shuffle' = some p → ∀ i, (p i).Perm (List.range X.nrows)) →
      ∃ w w' p p', fitLasso false l1Ratio lambda maxIter shuffle X y = .ok w ∧
        fitLasso false l1Ratio lambda maxIter' shuffle' X y' = .ok w' ∧ predictLabel false w X = .ok p ∧
        predictLabel false w' X = .ok p' ∧ meanSquaredGap p p' ≤ meanSquaredGap y y' + eps := by
  set D := meanSquaredGap y y' with hD
  have hD0 : 0 ≤ D := div_nonneg (List.sum_nonneg fun a ha => by
    obtain ⟨i, hi, rfl⟩ := List.mem_iff_getElem.mp ha
    rw [List.getElem_zipWith]
    positivity) (by positivity)
  -- a `t` for which the first part exceeds `D` by at most `eps / 2`
  obtain ⟨t, h0, h1, ht⟩ : ∃ t : ℝ, 0 < t ∧ t < 1 ∧ D / (1 - t) ^ 2 ≤ D + eps / 2 := by
    have hpos : 0 < 2 * (D + eps / 2) := by positivity
    refine ⟨min (1 / 2) (eps / 2 / (2 * (D + eps / 2))), lt_min (by norm_num) (by positivity), (min_le_left _ _).trans_lt (by norm_num), ?_⟩
    set t := min (1 / 2) (eps / 2 / (2 * (D + eps / 2))) with htd
    have ht1 : t ≤ 1 / 2 := min_le_left _ _
    have ht2 : t * (2 * (D + eps / 2)) ≤ eps / 2 := by
      rw [← le_div_iff₀ hpos]
      exact min_le_right _ _
    have hq : 0 < (1 - t) ^ 2 := by
      have : 0 < 1 - t := by linarith
      positivity
    rw [div_le_iff₀ hq]
    nlinarith [mul_nonneg hpos.le (sq_nonneg t)]
  have hq : 0 < t * (1 - t) := mul_pos h0 (by linarith)
  obtain ⟨N, hN, hs⟩ := lassoExcess_small X.ncols l1Ratio lambda y (eps / 8 * (t * (1 - t))) (by positivity)
  obtain ⟨N', _, hs'⟩ := lassoExcess_small X.ncols l1Ratio lambda y' (eps / 8 * (t * (1 - t))) (by positivity)
  refine ⟨max N N', fun m m' hm hm' s s' hp hp' => ?_⟩
  obtain ⟨w, w', p, p', a, b, c, e, h⟩ := C178_targets l1Ratio l1Ratio lambda hb hb hl s s' m m'
    (hN.trans_le ((le_max_left _ _).trans hm)) (hN.trans_le ((le_max_left _ _).trans hm')) X hX hn hd y y' hy hy' hp hp' hcurv hcurv t h0 h1
  refine ⟨w, w', p, p', a, b, c, e, h.trans ?_⟩
  have g := hs m ((le_max_left _ _).trans hm)
  have g' := hs' m' ((le_max_right _ _).trans hm')
  have : 2 * (lassoExcess X.ncols l1Ratio lambda m y + lassoExcess X.ncols l1Ratio lambda m' y') / (t * (1 - t)) ≤ eps / 2 := by
    rw [div_le_iff₀ hq]
    linarith
  linarith

/-- C178: `LogisticRegression` with penalty "l1": two trainings on the same data from any two initial weights, with any orders, numbers of
iterations and step constants: the weights are as near as the excess of the objectives allows. -/
theorem C178_logistic (l1Ratio l1Ratio' lambda : ℝ) (hb : 0 < l1Ratio) (hb' : 0 < l1Ratio') (hl : 0 < lambda) (p p' : Params ℝ)
    (hm : 0 < p.maxIter) (hm' : 0 < p'.maxIter)
    (lbfgs : LossFn ℝ (List ℝ) → DMat ℝ → List ℝ → List ℝ → Res (List ℝ)) (X : DMat ℝ) (hX : X.WF) (hn : X.nrows ≠ 0) (y : List ℝ)
    (hy : y.length = X.nrows) (hlab : ∀ a ∈ y, 0 ≤ a ∧ a ≤ 1)
    (hp : ∀ q, p.shuffle = some q → ∀ i, (q i).Perm (List.range X.nrows))
    (hp' : ∀ q, p'.shuffle = some q → ∀ i, (q i).Perm (List.range X.nrows))
    (hcurv : ∀ j ≤ X.ncols, ((X.rows.map fun r => (r ++ [1]).getD j 0 ^ 2).sum / 4 + lambda) / X.nrows ≤ l1Ratio)
    (hcurv' : ∀ j ≤ X.ncols, ((X.rows.map fun r => (r ++ [1]).getD j 0 ^ 2).sum / 4 + lambda) / X.nrows ≤ l1Ratio')
    (w w' : List ℝ) (hw : w.length = X.ncols + 1) (hw' : w'.length = X.ncols + 1) :
    ∃ v v' a a', fitLogistic lambda l1Ratio "l1" "scd" p lbfgs X y w = .ok v ∧
      fitLogistic lambda l1Ratio' "l1" "scd" p' lbfgs X y w' = .ok v' ∧ logEvaluate lambda (withOnes X) y w = .ok a ∧
      logEvaluate lambda (withOnes X) y w' = .ok a' ∧
      lambda / (4 * X.nrows) * sqDist v v' ≤
        2 * (X.ncols + 1) * max (a + lambda * l1Norm w) (l1Ratio * (2 * ((a + lambda * l1Norm w) / lambda)) ^ 2) / p.maxIter +
        2 * (X.ncols + 1) * max (a' + lambda * l1Norm w') (l1Ratio' * (2 * ((a' + lambda * l1Norm w') / lambda)) ^ 2) / p'.maxIter := by
  obtain ⟨v, a, b, h1, h2, h3, h4⟩ := C107_logistic l1Ratio lambda hb hl p lbfgs X hX hn y hy hlab hp hcurv w hw
  obtain ⟨v', a', b', k1, k2, k3, k4⟩ := C107_logistic l1Ratio' lambda hb' hl p' lbfgs X hX hn y hy hlab hp' hcurv' w' hw'
  refine ⟨v, v', a, a', h1, k1, h2, k2, ?_⟩
  have hnr : (withOnes X).nrows = X.nrows := by simp [withOnes, DMat.nrows]
  have hlen : ∀ {u : List ℝ} {m : ℝ}, logEvaluate lambda (withOnes X) y u = .ok m → u.length = (withOnes X).ncols := by
    intro u m hu
    by_contra hne
    unfold logEvaluate mulVec at hu
    rw [if_neg (fun h => hne h.symm)] at hu
    exact absurd hu (by intro h; cases h)
  obtain ⟨f, rfl⟩ := exists_ofFn v (hlen h3)
  obtain ⟨g, rfl⟩ := exists_ofFn v' (hlen k3)
  have hev := (isMean_log lambda).evaluate (withOnes X) (withOnes_wf X hX) y (by rw [hnr]; exact hy)
  dsimp only at hev
  have eb := h3.symm.trans (hev f)
  have eb' := k3.symm.trans (hev g)
  rw [Res.ok.injEq] at eb eb'
  have s := strong_middle crossEntropy (fun a s => Real.sigmoid s - a) crossEntropy_tangent lambda ((withOnes X).rows.zip y) f g
  have hz : ((withOnes X).rows.zip y).length = X.nrows := by
    rw [List.length_zip, hy, show (withOnes X).rows.length = X.nrows from hnr, Nat.min_self]
  rw [hz] at s
  rw [hnr] at eb eb' hev
  rw [← eb, ← eb'] at s
  have u1 := h4 _ _ (by simp [withOnes]) (hev (mix (1 / 2) f g))
  have u2 := k4 _ _ (by simp [withOnes]) (hev (mix (1 / 2) f g))
  rw [sum_ofFn_abs, sum_ofFn_abs] at u1 u2
  have m := mul_le_mul_of_nonneg_left (abs_mix (1 / 2) (by norm_num) (by norm_num) f g) hl.le
  have hpos : (0 : ℝ) < p.maxIter := by exact_mod_cast hm
  have hpos' : (0 : ℝ) < p'.maxIter := by exact_mod_cast hm'
  rw [mul_comm, ← le_div_iff₀ hpos] at u1
  rw [mul_comm, ← le_div_iff₀ hpos'] at u2
  rw [sqDist_ofFn]
  linarith

/-- Example for C178: the bound on the curvature for one feature with values 1 and -1 and `lambda` 1 holds for the step constants 1 and 2,
so that all initial weights of length 2 may be compared. -/
example : ∀ j ≤ 1, ((([[1], [-1]] : List (List ℝ)).map fun r => (r ++ [1]).getD j 0 ^ 2).sum / 4 + 1) / 2 ≤ 1 ∧
    ((([[1], [-1]] : List (List ℝ)).map fun r => (r ++ [1]).getD j 0 ^ 2).sum / 4 + 1) / 2 ≤ 2 := by
  intro j hj
  obtain rfl | rfl : j = 0 ∨ j = 1 := by omega
  · norm_num
  · norm_num

end OpenML
