import Verif.Spec.LinearAnswers
import Verif.Props.EstimatorObject
import Verif.Props.CoordinateRate
import Verif.Props.LinearModel
import Verif.Props.Perceptron

/-!
# C149: what linear model objects answer
-/

namespace OpenML

open EstObject Spec

namespace LinearAnswers

theorem ask_after {κ Q A : Type} (C : Class κ Q A) {ops : List (Op κ Q)} {w : World} {seen : List (Seen A)}
    (hr : run C (fun _ => none) ops = .ok (w, seen)) {n : Nat} {L : List (FitCall κ)} {k : κ} {X : DMat ℝ} {y : List ℝ}
    (hL : histories ops n = some (L ++ [(k, X, y)])) {W : DMat ℝ} (hW : C.fitData k X y = .ok W) (q : Q) :
    run C (fun _ => none) (ops ++ [.ask n q]) = seenOf w seen (C.ask W q) := by
  have h := run_histories C (h := fun _ => none) (fun _ => rfl) ops hr n
  change w n = (histories ops n).map (known C) at h
  rw [hL, Option.map_some, known_snoc_ok C L hW] at h
  exact run_ask C hr h q

theorem predictLabel_score (b : Bool) (v : List ℝ) (X : DMat ℝ) (hX : X.WF) (hv : v.length = weightLength b X) :
    LinearFit.predictLabel b v X = .ok (X.rows.map (scoreOf b v)) := by
  cases b with
  | true => exact predictLabel_eq v X hX hv
  | false =>
    simp only [LinearFit.predictLabel, Bool.false_eq_true, if_false]
    exact if_pos hv.symm

theorem zip_sum (r : List ℝ) : ∀ {m : Nat} (g : Fin m → ℝ), r.length = m →
    (List.zipWith (· * ·) r (List.ofFn g)).sum = ∑ j : Fin m, r.getD j.val 0 * g j := by
  intro m g hr
  subst hr
  rw [← List.sum_ofFn]
  congr 1
  refine List.ext_getElem (by simp) fun j h1 h2 => ?_
  have hj : j < r.length := by simpa using h2
  simp [List.getD_eq_getElem?_getD, List.getElem?_eq_getElem hj]

theorem predict_score (b : Bool) (X : DMat ℝ) (hX : X.WF) (f : Fin (LinearModel.width b X.ncols) → ℝ) (i : Fin X.nrows) (r : List ℝ)
    (hr : X.rows[i.val]? = some r) : LinearModel.predict (toMatrix X) b f i = scoreOf b (List.ofFn f) r := by
  have hrl : r.length = X.ncols := hX _ (List.mem_of_getElem? hr)
  have hrow : ∀ j : Fin X.ncols, toMatrix X i j = r.getD j.val 0 := by
    intro j
    simp only [toMatrix, hr, Option.getD_some]
  cases b with
  | false =>
    have e := zip_sum r (m := X.ncols) f hrl
    have e2 : scoreOf false (List.ofFn f) r = (List.zipWith (· * ·) r (List.ofFn f)).sum := rfl
    rw [e2]
    refine Eq.trans ?_ e.symm
    change ∑ j : Fin X.ncols, toMatrix X i j * f j = _
    exact Finset.sum_congr rfl fun j _ => by rw [hrow]
  | true =>
    have e := zip_sum (r ++ [1]) (m := X.ncols + 1) f (by simp [hrl])
    have e2 : scoreOf true (List.ofFn f) r = (List.zipWith (· * ·) (r ++ [1]) (List.ofFn f)).sum := rfl
    rw [e2]
    refine Eq.trans ?_ e.symm
    rw [Fin.sum_univ_castSucc]
    have e3 : (r ++ [(1 : ℝ)]).getD (Fin.last X.ncols).val 0 = 1 := by
      simp [List.getD_eq_getElem?_getD, hrl]
    have e4 : ∀ j : Fin X.ncols, (r ++ [(1 : ℝ)]).getD (Fin.castSucc j).val 0 = r.getD j.val 0 := by
      intro j
      have := j.2
      simp [List.getD_eq_getElem?_getD, hrl]
    rw [e3, one_mul]
    change ∑ j : Fin X.ncols, toMatrix X i j * f (Fin.castSucc j) + f (Fin.last X.ncols) = _
    congr 1
    exact Finset.sum_congr rfl fun j _ => by rw [hrow, e4]

theorem error_eq (b : Bool) (X : DMat ℝ) (hX : X.WF) (y : List ℝ) (hy : y.length = X.nrows)
    (f : Fin (LinearModel.width b X.ncols) → ℝ) :
    squaredError (LinearModel.predict (toMatrix X) b f) (fun i => y.getD i.val 0) = trainingError b X y (List.ofFn f) := by
  unfold squaredError trainingError
  rw [← List.sum_ofFn]
  congr 1
  refine List.ext_getElem (by simp [hy, DMat.nrows]) fun j h1 h2 => ?_
  have hj : j < y.length := by simpa [hy] using h1
  have hjr : j < X.rows.length := by rw [hy] at hj; exact hj
  simp only [List.getElem_ofFn, List.getElem_map, List.getElem_zip]
  rw [predict_score b X hX f ⟨j, hjr⟩ X.rows[j] (List.getElem?_eq_getElem hjr), List.getD_eq_getElem?_getD, List.getElem?_eq_getElem hj,
    Option.getD_some]

theorem width_eq (b : Bool) (X : DMat ℝ) : LinearModel.width b X.ncols = weightLength b X := by cases b <;> rfl

theorem squares_eq {p : Nat} (f : Fin p → ℝ) : squaredNorm f = sumSquares (List.ofFn f) := by
  simp [squaredNorm, sumSquares, List.map_ofFn, List.sum_ofFn]

theorem ofFn_of_length (b : Bool) (X : DMat ℝ) (u : List ℝ) (hu : u.length = weightLength b X) :
    ∃ f : Fin (LinearModel.width b X.ncols) → ℝ, u = List.ofFn f := by
  rw [← width_eq] at hu
  exact ⟨fun i => u[i]'(by rw [hu]; exact i.2), by
    refine List.ext_getElem (by simp [hu]) fun j h1 h2 => by simp⟩

theorem softmaxProb_eq (W X : DMat ℝ) (hn : W.nrows = X.ncols + 1) (hr : X.rows ≠ []) (hc : 0 < W.ncols)
    (h : ¬ (X.nrows = 1 ∨ W.ncols = 1)) (hones : ∀ r ∈ W.rows, r = List.replicate W.ncols 1) :
    LinearFit.softmaxProb W X = .ok ⟨W.ncols, X.rows.map fun _ => List.replicate W.ncols (1 / (W.ncols : ℝ))⟩ := by
  have hcol : ∀ c < W.ncols, (DMat.mk W.ncols (W.rows.take X.ncols)).col c = List.replicate X.ncols 1 := by
    intro c hc
    have key : ∀ rows : List (List ℝ), (∀ r ∈ rows, r = List.replicate W.ncols 1) →
        rows.filterMap (·[c]?) = List.replicate rows.length 1 := by
      intro rows
      induction rows with
      | nil => simp
      | cons r rows ih =>
        intro h
        rw [List.filterMap_cons, h r (by simp), List.getElem?_replicate, if_pos hc, ih fun r hr => h r (List.mem_cons_of_mem _ hr)]
        rfl
    unfold DMat.col
    rw [key _ fun r hr => hones r (List.mem_of_mem_take hr), List.length_take]
    congr 1
    unfold DMat.nrows at hn
    omega
  have hb : LinearFit.softmaxBoundary W X = .ok ⟨W.ncols, X.rows.map fun r =>
      List.replicate W.ncols (Loss.dotL r (List.replicate X.ncols 1))⟩ := by
    unfold LinearFit.softmaxBoundary Loss.mulMat
    rw [if_pos (by omega), if_pos (by rw [DMat.nrows, List.length_take]; unfold DMat.nrows at hn; omega)]
    congr 2
    apply List.map_congr_left
    intro r _
    unfold DMat.cols
    rw [List.map_map, List.eq_replicate_iff]
    refine ⟨by simp, fun a ha => ?_⟩
    obtain ⟨c, hcm, rfl⟩ := List.mem_map.mp ha
    rw [Function.comp_apply, hcol c (List.mem_range.mp hcm)]
  have hwf : (DMat.mk W.ncols (X.rows.map fun r => List.replicate W.ncols (Loss.dotL r (List.replicate X.ncols 1)))).WF := by
    intro r hr
    obtain ⟨x, -, rfl⟩ := List.mem_map.mp hr
    simp
  have h29 := C29_softmax _ hwf (by simpa using hr) hc
  simp only [DMat.nrows, List.length_map] at h29
  unfold LinearFit.softmaxProb
  rw [hb, bind_ok', (h29.2 h).1]
  simp only [List.map_map]
  congr 2
  refine List.map_congr_left fun r _ => ?_
  simp only [Function.comp, softmaxOf, sumExp, List.map_replicate, List.sum_replicate, nsmul_eq_mul]
  congr 1
  rw [div_mul_cancel_right₀ (Real.exp_pos _).ne', one_div]

end LinearAnswers

open LinearAnswers

section
variable {ops : List (Op (Nat → ℝ) Query)} {w : World} {seen : List (Seen (List ℝ))} {n : Nat} {L : List (FitCall (Nat → ℝ))}
  {k : Nat → ℝ} {X : DMat ℝ} {y : List ℝ}

/-- C149: `LinearRegression`: after any program, an object whose last fit was on `X` and `y` answers with the scores of the only weights with
the least squared error on `X` and `y`, provided different weights give different scores there. -/
theorem C149_linear (b : Bool) (hr : run (linear b) (fun _ => none) ops = .ok (w, seen))
    (hL : histories ops n = some (L ++ [(k, X, y)])) (hX : X.WF) (hy : y.length = X.nrows)
    (hinj : ∀ u v : List ℝ, u.length = weightLength b X → v.length = weightLength b X →
      (∀ r ∈ X.rows, scoreOf b u r = scoreOf b v r) → u = v) :
    ∃ v : List ℝ, v.length = weightLength b X ∧
      (∀ u : List ℝ, u.length = weightLength b X → u ≠ v → trainingError b X y v < trainingError b X y u) ∧
      run (linear b) (fun _ => none) (ops ++ [.ask n .coef]) = .ok (w, seen ++ [.answer v]) ∧
      ∀ Z : DMat ℝ, Z.WF → Z.ncols = X.ncols →
        run (linear b) (fun _ => none) (ops ++ [.ask n (.predict Z)]) = .ok (w, seen ++ [.answer (Z.rows.map (scoreOf b v))]) := by
  obtain ⟨h1, h2⟩ := C56_linear b (toMatrix X) fun i => y.getD i.val 0
  cases hfit : LinearModel.fitLinear b (toMatrix X) fun i => y.getD i.val 0 with
  | none =>
    obtain ⟨f, g, hfg, he⟩ := h2.mp hfit
    refine absurd (hinj (List.ofFn f) (List.ofFn g) (by simp [width_eq]) (by simp [width_eq]) fun r hrm => ?_)
      fun h => hfg (List.ofFn_injective h)
    obtain ⟨i, hi, rfl⟩ := List.mem_iff_getElem.mp hrm
    have e := congrFun he ⟨i, hi⟩
    rwa [predict_score b X hX f ⟨i, hi⟩ _ (List.getElem?_eq_getElem hi), predict_score b X hX g ⟨i, hi⟩ _ (List.getElem?_eq_getElem hi)] at e
  | some f =>
    have hmin := h1 f hfit
    have hW : (linear b).fitData k X y = .ok (ofVector (List.ofFn f)) := by
      simp only [linear, solved, if_pos hy, hfit]
    have hv : (List.ofFn f).length = weightLength b X := by simp [width_eq]
    refine ⟨List.ofFn f, hv, fun u hu hne => ?_, ?_, fun Z hZ hc => ?_⟩
    · obtain ⟨g, rfl⟩ := ofFn_of_length b X u hu
      have := hmin g fun h => hne (by rw [h])
      simpa only [error_eq b X hX y hy] using this
    · rw [ask_after _ hr hL hW]
      simp only [linear, askBase, asVector_ofVector, seenOf]
    · rw [ask_after _ hr hL hW]
      simp only [linear, askBase, asVector_ofVector, bind_ok']
      rw [predictLabel_score b _ Z hZ (by rw [hv]; simp only [weightLength, hc])]
      rfl

/-- C149: `RidgeRegression` with positive regularisation: the only weights for which the squared error plus `lambda` times the sum of the
squares of all weights is least; every data set has them. -/
theorem C149_ridge (lambda : ℝ) (hl : 0 < lambda) (b : Bool) (hr : run (ridge lambda b) (fun _ => none) ops = .ok (w, seen))
    (hL : histories ops n = some (L ++ [(k, X, y)])) (hX : X.WF) (hy : y.length = X.nrows) :
    ∃ v : List ℝ, v.length = weightLength b X ∧
      (∀ u : List ℝ, u.length = weightLength b X → u ≠ v →
        trainingError b X y v + lambda * sumSquares v < trainingError b X y u + lambda * sumSquares u) ∧
      run (ridge lambda b) (fun _ => none) (ops ++ [.ask n .coef]) = .ok (w, seen ++ [.answer v]) ∧
      ∀ Z : DMat ℝ, Z.WF → Z.ncols = X.ncols →
        run (ridge lambda b) (fun _ => none) (ops ++ [.ask n (.predict Z)]) = .ok (w, seen ++ [.answer (Z.rows.map (scoreOf b v))]) := by
  obtain ⟨f, hfit, hmin⟩ := C56_ridge lambda hl b (toMatrix X) fun i => y.getD i.val 0
  have hW : (ridge lambda b).fitData k X y = .ok (ofVector (List.ofFn f)) := by
    simp only [ridge, solved, if_pos hy, hfit]
  have hv : (List.ofFn f).length = weightLength b X := by simp [width_eq]
  refine ⟨List.ofFn f, hv, fun u hu hne => ?_, ?_, fun Z hZ hc => ?_⟩
  · obtain ⟨g, rfl⟩ := ofFn_of_length b X u hu
    have := hmin g fun h => hne (by rw [h])
    simpa only [error_eq b X hX y hy, squares_eq] using this
  · rw [ask_after _ hr hL hW]
    simp only [ridge, askBase, asVector_ofVector, seenOf]
  · rw [ask_after _ hr hL hW]
    simp only [ridge, askBase, asVector_ofVector, bind_ok']
    rw [predictLabel_score b _ Z hZ (by rw [hv]; simp only [weightLength, hc])]
    rfl

end

section
variable {ops : List (Op (Nat → List Nat) Query)} {w : World} {seen : List (Seen (List ℝ))} {n : Nat} {L : List (FitCall (Nat → List Nat))}
  {k : Nat → List Nat} {X : DMat ℝ} {y : List ℝ}

/-- C149: `LassoRegression` without intercept: the answers are the scores of weights whose objective, half the mean squared error plus
`lambda` times the sum of the absolute weights, is at most a constant divided by the number of iterations above that of any other weights. -/
theorem C149_lasso (l1Ratio lambda : ℝ) (hb : 0 < l1Ratio) (hl : 0 < lambda) (maxIter : Nat) (shuffle : Bool)
    (hr : run (lasso false l1Ratio lambda maxIter shuffle) (fun _ => none) ops = .ok (w, seen))
    (hL : histories ops n = some (L ++ [(k, X, y)])) (hX : X.WF) (hn : X.nrows ≠ 0) (hd : 0 < X.ncols) (hy : y.length = X.nrows)
    (hp : shuffle = true → ∀ i, (k i).Perm (List.range X.nrows))
    (hcurv : ∀ j < X.ncols, (X.rows.map fun r => r.getD j 0 ^ 2).sum / X.nrows ≤ l1Ratio) :
    ∃ v a b, v.length = X.ncols ∧ Loss.mseEvaluate 0 X y (List.replicate X.ncols 0) = .ok a ∧ Loss.mseEvaluate 0 X y v = .ok b ∧
      (∀ (u : List ℝ) (m : ℝ), u.length = X.ncols → Loss.mseEvaluate 0 X y u = .ok m →
        maxIter * ((b + lambda * l1Norm v) - (m + lambda * l1Norm u)) ≤ 2 * X.ncols * max a (l1Ratio * (2 * (a / lambda)) ^ 2)) ∧
      run (lasso false l1Ratio lambda maxIter shuffle) (fun _ => none) (ops ++ [.ask n .coef]) = .ok (w, seen ++ [.answer v]) ∧
      ∀ Z : DMat ℝ, Z.WF → Z.ncols = X.ncols →
        run (lasso false l1Ratio lambda maxIter shuffle) (fun _ => none) (ops ++ [.ask n (.predict Z)]) =
          .ok (w, seen ++ [.answer (Z.rows.map (scoreOf false v))]) := by
  have hperm : ∀ p, (if shuffle then some k else none) = some p → ∀ i, (p i).Perm (List.range X.nrows) := by
    intro p hp'
    cases shuffle with
    | false => simp at hp'
    | true =>
      simp only [if_true, Option.some.injEq] at hp'
      subst hp'
      exact hp rfl
  obtain ⟨v, a, b, h1, h2, h3, h4⟩ := C107_lasso l1Ratio lambda hb hl (if shuffle then some k else none) maxIter X hX hn hd y hy hperm hcurv
  obtain ⟨v', h1', hv⟩ := C57_lasso_no_intercept l1Ratio lambda maxIter (if shuffle then some k else none) X hX hd y hy hperm
  rw [h1] at h1'
  cases h1'
  have hW : (lasso false l1Ratio lambda maxIter shuffle).fitData k X y = .ok (ofVector v) := by
    simp only [lasso, h1, bind_ok']
  refine ⟨v, a, b, hv, h2, h3, h4, ?_, fun Z hZ hc => ?_⟩
  · rw [ask_after _ hr hL hW]
    simp only [lasso, askBase, asVector_ofVector, seenOf]
  · rw [ask_after _ hr hL hW]
    simp only [lasso, askBase, asVector_ofVector, bind_ok']
    rw [predictLabel_score false _ Z hZ (by rw [hv]; simp only [weightLength, hc]; rfl)]
    rfl

/-- C149: with intercept, every program that fits a `LassoRegression` on proper data stops there. -/
theorem C149_lasso_intercept (l1Ratio lambda : ℝ) (maxIter : Nat) (hm : maxIter ≠ 0) (shuffle : Bool)
    (hr : run (lasso true l1Ratio lambda maxIter shuffle) (fun _ => none) ops = .ok (w, seen)) (hn : histories ops n ≠ none) (hX : X.WF)
    (hy : y.length = X.nrows) (hp : shuffle = true → (k 0).Perm (List.range X.nrows)) (more : List (Op (Nat → List Nat) Query)) :
    run (lasso true l1Ratio lambda maxIter shuffle) (fun _ => none) (ops ++ .fit n k X y :: more) = .ub := by
  have hfit : (lasso true l1Ratio lambda maxIter shuffle).fitData k X y = .ub := by
    simp only [lasso]
    rw [C57_lasso_intercept l1Ratio lambda maxIter hm _ X hX y hy ?_]
    · rfl
    · intro q hq
      cases shuffle with
      | false => simp at hq
      | true =>
        simp only [if_true, Option.some.injEq] at hq
        subst hq
        exact hp rfl
  have h := run_histories (lasso true l1Ratio lambda maxIter shuffle) (h := fun _ => none) (fun _ => rfl) ops hr n
  change w n = (histories ops n).map (known _) at h
  obtain ⟨L, hL⟩ := Option.ne_none_iff_exists'.mp hn
  rw [hL, Option.map_some] at h
  rw [run_append, hr, bind_ok']
  simp only [run, step, h, hfit]
  rfl

end

/-- C149: `Perceptron`: after any program, an object whose last fit delivered the weights `v` answers 1 for the samples with positive score
and 0 for all others. If these weights classify the training samples, as they do under the conditions of C97, the training samples with
positive label are answered with 1 and the others with 0. -/
theorem C149_perceptron (b : Bool) (lambda : ℝ) (p : SGD.Params ℝ) (shuffle : Bool)
    {ops : List (Op (List ℝ × List ℝ × (Nat → List Nat)) Query)} {w : World} {seen : List (Seen (List ℝ))} {n : Nat}
    {L : List (FitCall (List ℝ × List ℝ × (Nat → List Nat)))} {k : List ℝ × List ℝ × (Nat → List Nat)} {X : DMat ℝ} {y : List ℝ}
    (hr : run (perceptron b lambda p shuffle) (fun _ => none) ops = .ok (w, seen))
    (hL : histories ops n = some (L ++ [(k, X, y)])) (v : List ℝ)
    (hv : LinearFit.fitPerceptron lambda k.2.1 { p with shuffle := if shuffle then some k.2.2 else none } X y k.1 = .ok v)
    (hlen : v.length = weightLength b X) :
    run (perceptron b lambda p shuffle) (fun _ => none) (ops ++ [.ask n .coef]) = .ok (w, seen ++ [.answer v]) ∧
    (∀ Z : DMat ℝ, Z.WF → Z.ncols = X.ncols → run (perceptron b lambda p shuffle) (fun _ => none) (ops ++ [.ask n (.predict Z)]) =
      .ok (w, seen ++ [.answer (Z.rows.map fun r => if 0 < scoreOf b v r then 1 else 0)])) ∧
    (b = false → X.WF → y.length = X.nrows → Classifies (X.rows.zip y) v →
      run (perceptron b lambda p shuffle) (fun _ => none) (ops ++ [.ask n (.predict X)]) =
        .ok (w, seen ++ [.answer (y.map fun a => if 0 < a then 1 else 0)])) := by
  have hW : (perceptron b lambda p shuffle).fitData k X y = .ok (ofVector v) := by
    simp only [perceptron, hv, bind_ok']
  refine ⟨?_, fun Z hZ hc => ?_, ?_⟩
  · rw [ask_after _ hr hL hW]
    simp only [perceptron, askPerceptron, asVector_ofVector, seenOf]
  · rw [ask_after _ hr hL hW]
    simp only [perceptron, askPerceptron, asVector_ofVector, bind_ok', LinearFit.predictPerceptron]
    rw [predictLabel_score b _ Z hZ (by rw [hlen]; simp only [weightLength, hc]), bind_ok', List.map_map]
    rfl
  · rintro rfl hX hy hcl
    rw [ask_after _ hr hL hW]
    simp only [perceptron, askPerceptron, asVector_ofVector, bind_ok']
    rw [C97_predict X y hy v hlen hcl]
    rfl

/-- C149: `LogisticRegression`: after any program, an object whose last fit delivered the weights `v` answers with two probabilities for each
sample, first that of label 1 in the training loss, `1 / (1 + exp (- score))`, and predicts 0 exactly for the samples with positive score. -/
theorem C149_logistic (m : LogisticObject.Members) {ops : List (Op LogisticDraw ProbQuery)} {w : World} {seen : List (Seen ProbAnswer)} {n : Nat}
    {L : List (FitCall LogisticDraw)} {k : LogisticDraw} {X : DMat ℝ} {y : List ℝ} (hr : run (logistic m) (fun _ => none) ops = .ok (w, seen))
    (hL : histories ops n = some (L ++ [(k, X, y)])) (v : List ℝ) (hv : LogisticObject.fit m k.perms k.junk k.fuel X y k.init = .ok v)
    (hlen : v.length = X.ncols + 1) :
    run (logistic m) (fun _ => none) (ops ++ [.ask n .coef]) = .ok (w, seen ++ [.answer (.vec v)]) ∧
    ∀ Z : DMat ℝ, Z.WF → Z.ncols = X.ncols →
      run (logistic m) (fun _ => none) (ops ++ [.ask n (.predict Z)]) =
        .ok (w, seen ++ [.answer (.vec (Z.rows.map fun r => if 0 < scoreOf true v r then 0 else 1))]) ∧
      run (logistic m) (fun _ => none) (ops ++ [.ask n (.prob Z)]) = .ok (w, seen ++ [.answer (.mat ⟨2, Z.rows.map fun r =>
        [1 / (1 + Real.exp (-scoreOf true v r)), 1 - 1 / (1 + Real.exp (-scoreOf true v r))]⟩)]) := by
  have hne : v ≠ [] := by rintro rfl; simp at hlen
  have hW : (logistic m).fitData k X y = .ok (ofVector v) := by
    simp only [logistic, hv, bind_ok', ofCoef, if_neg hne]
  refine ⟨?_, fun Z hZ hc => ⟨?_, ?_⟩⟩
  · rw [ask_after _ hr hL hW]
    simp only [logistic, askLogistic, asVector_ofVector, bind_ok', seenOf]
  · rw [ask_after _ hr hL hW]
    simp only [logistic, askLogistic, asVector_ofVector, bind_ok']
    rw [predictLogistic_eq v Z hZ (by rw [hlen, hc])]
    rfl
  · rw [ask_after _ hr hL hW]
    simp only [logistic, askLogistic, asVector_ofVector, bind_ok']
    have hp : LinearFit.logisticProb v Z = .ok ⟨2, Z.rows.map fun r =>
        [1 / (1 + Real.exp (-scoreOf true v r)), 1 - 1 / (1 + Real.exp (-scoreOf true v r))]⟩ := by
      obtain ⟨P, ys, e1, -, e2, e3, e4⟩ := C58_prob v Z hZ (by rw [hlen, hc])
      rw [e1]
      congr 1
      obtain ⟨c, rows⟩ := P
      simp only at e2
      subst e2
      congr 1
      refine List.ext_getElem (by simpa [DMat.nrows] using e3) fun i h1 h2 => ?_
      have hi : i < Z.rows.length := by simpa using h2
      obtain ⟨a, q, _, g1, -, -, -, g2, g3, -⟩ := e4 i Z.rows[i] (List.getElem?_eq_getElem hi)
      rw [List.getElem?_eq_getElem h1, Option.some.injEq] at g1
      rw [g1, List.getElem_map]
      have : a = 1 / (1 + Real.exp (-scoreOf true v Z.rows[i])) := g3
      rw [← this, ← g2]
      simp
    rw [hp]
    rfl

/-- C149: `SoftmaxRegression`: whatever a program does with proper data (matching labels, permutations when shuffling), no object ever answers
a question for probabilities with anything but equal probabilities for all classes, and no question for predictions with anything but class
0 for every sample. -/
theorem C149_softmax (lambda : ℝ) (p : SGD.Params ℝ) (shuffle : Bool) {ops : List (Op (Nat → List Nat) ProbQuery)} {w : World}
    {seen : List (Seen ProbAnswer)} (hr : run (softmax lambda p shuffle) (fun _ => none) ops = .ok (w, seen)) {n : Nat}
    {L : List (FitCall (Nat → List Nat))} (hL : histories ops n = some L)
    (hproper : ∀ c ∈ L, c.2.1.WF ∧ c.2.2.length = c.2.1.nrows ∧ c.2.2 ≠ [] ∧ (shuffle = true → (c.1 0).Perm (List.range c.2.1.nrows)))
    (Z : DMat ℝ) (hZ : Z.WF) (hrows : Z.rows ≠ []) (W : DMat ℝ) (hW : lastSuccess (softmax lambda p shuffle).fitData L = some W)
    (hcols : W.nrows = Z.ncols + 1) :
    (Z.nrows = 1 ∨ W.ncols = 1 →
      run (softmax lambda p shuffle) (fun _ => none) (ops ++ [.ask n (.prob Z)]) = .ok (w, seen ++ [.caught .invalidArgument]) ∧
      run (softmax lambda p shuffle) (fun _ => none) (ops ++ [.ask n (.predict Z)]) = .ok (w, seen ++ [.caught .invalidArgument])) ∧
    (¬ (Z.nrows = 1 ∨ W.ncols = 1) →
      run (softmax lambda p shuffle) (fun _ => none) (ops ++ [.ask n (.prob Z)]) =
        .ok (w, seen ++ [.answer (.mat ⟨W.ncols, Z.rows.map fun _ => List.replicate W.ncols (1 / (W.ncols : ℝ))⟩)]) ∧
      run (softmax lambda p shuffle) (fun _ => none) (ops ++ [.ask n (.predict Z)]) =
        .ok (w, seen ++ [.answer (.vec (Z.rows.map fun _ => 0))])) := by
  -- the weights are all one
  have hones : 0 < W.ncols ∧ ∀ r ∈ W.rows, r = List.replicate W.ncols 1 := by
    unfold lastSuccess at hW
    have hmem := List.mem_of_getLast? hW
    obtain ⟨c, hc, hcW⟩ := List.mem_filterMap.mp hmem
    obtain ⟨g1, g2, g3, g4⟩ := hproper c hc
    have hfit : (softmax lambda p shuffle).fitData c.1 c.2.1 c.2.2 = .ok W := by
      split at hcW
      · rename_i b hb
        rw [hb]
        simpa using hcW
      · simp at hcW
    simp only [softmax] at hfit
    set q : SGD.Params ℝ := { p with shuffle := if shuffle then some c.1 else none } with hq
    have hq0 : q.batchSize ≠ 0 := by
      intro h0
      unfold LinearFit.fitSoftmax SGD.sgd SGD.optimize at hfit
      rw [if_pos h0] at hfit
      cases hfit
    have hsmall : c.2.1.nrows < q.batchSize := by
      by_contra hle
      obtain ⟨i, hi, D, st, Lo, hrun, -⟩ := (C47_publishes_iff _ _ _ q hq0 _ _ _ W).mp hfit
      obtain ⟨-, lr, hlr, -⟩ := hrun.2.2 0 (by omega)
      have hub := C57_softmax lambda q hq0 (by omega) lr hlr c.2.1 g1 c.2.2 g2 (not_lt.mp hle) (by
        intro t ht
        cases shuffle with
        | false => simp [hq] at ht
        | true =>
          simp only [hq, if_true, Option.some.injEq] at ht
          subst ht
          exact g4 rfl)
      rw [hub] at hfit
      cases hfit
    have hWe := C48_large_batch _ _ _ q hq0 c.2.1 c.2.2 hsmall _ W hfit
    simp only [id] at hWe
    subst hWe
    refine ⟨?_, fun r hr => List.eq_of_mem_replicate hr⟩
    change 0 < LinearFit.numClasses c.2.2
    obtain ⟨a, t, e⟩ := List.exists_cons_of_ne_nil g3
    exact Finset.card_pos.mpr ⟨a, by rw [e]; simp⟩
  obtain ⟨hK, hones⟩ := hones
  have hWF : W.WF := fun r hr => by rw [hones r hr]; simp
  have hcol : ∀ c < W.ncols, W.col c = List.replicate W.nrows 1 := by
    intro c hc
    unfold DMat.col
    rw [List.eq_replicate_iff]
    have key : ∀ rows : List (List ℝ), (∀ r ∈ rows, r = List.replicate W.ncols 1) →
        rows.filterMap (·[c]?) = List.replicate rows.length 1 := by
      intro rows
      induction rows with
      | nil => simp
      | cons r rows ih =>
        intro h
        rw [List.filterMap_cons, h r (by simp), List.getElem?_replicate, if_pos hc, ih fun r hr => h r (List.mem_cons_of_mem _ hr)]
        rfl
    rw [key W.rows hones]
    simp [DMat.nrows]
  obtain ⟨h1, h2⟩ := C82_predict W Z hWF hcols hrows hK
  rw [C146_history _ hr hL, C146_history _ hr hL, hW, Option.getD_some]
  simp only [softmax, askSoftmax]
  constructor
  · intro h
    obtain ⟨a, b⟩ := h1 h
    rw [a, b]
    exact ⟨rfl, rfl⟩
  · intro h
    obtain ⟨P, ys, e1, e2, e3, e4, e5, e6⟩ := h2 h
    have hP := softmaxProb_eq W Z hcols hrows hK h hones
    have hys : ys = Z.rows.map fun _ => 0 := by
      refine List.ext_getElem (by simpa [DMat.nrows] using e4) fun i h3 h4 => ?_
      have hi : i < Z.rows.length := by simpa using h4
      have := e6 i Z.rows[i] ys[i] (List.getElem?_eq_getElem hi) (List.getElem?_eq_getElem h3)
      rw [List.getElem_map]
      obtain ⟨v, hv, hm⟩ := this
      have hall : ∀ q < W.ncols, ((List.range W.ncols).map fun c => Loss.dotL Z.rows[i] ((W.col c).take Z.ncols))[q]? =
          some (Loss.dotL Z.rows[i] ((List.replicate W.nrows 1).take Z.ncols)) := by
        intro q hq
        rw [List.getElem?_map, List.getElem?_range hq, Option.map_some, hcol q hq]
      have hlt : ys[i] < W.ncols := by
        have := (List.getElem?_eq_some_iff.mp hv).1
        simpa using this
      have e0 := hall ys[i] hlt
      rw [hv, Option.some.injEq] at e0
      exact Nat.le_zero.mp ((hm 0 _ (hall 0 hK)).2 e0.symm)
    rw [hP, e2, hys]
    refine ⟨rfl, ?_⟩
    simp [Function.comp_def]
    generalize Z.rows.length = m
    induction m with
    | zero => rfl
    | succ m ih => simp [List.replicate_succ, ih]

/-- Beside `C149_linear` and `C149_ridge`: a program that fits two samples, and different weights have different scores on them. -/
example (k : Nat → ℝ) : (∃ w, run (linear true) (fun _ => none) [.construct 0, .fit 0 k ⟨1, [[1], [2]]⟩ [3, 5]] = .ok (w, [.done, .done])) ∧
    (∃ w, run (ridge 1 true) (fun _ => none) [.construct 0, .fit 0 k ⟨1, [[1], [2]]⟩ [3, 5]] = .ok (w, [.done, .done])) ∧
    histories ([.construct 0, .fit 0 k ⟨1, [[1], [2]]⟩ [3, 5]] : List (Op (Nat → ℝ) Query)) 0 = some ([] ++ [(k, ⟨1, [[1], [2]]⟩, [3, 5])]) ∧
    ∀ u v : List ℝ, u.length = 2 → v.length = 2 →
      (∀ r ∈ ([[1], [2]] : List (List ℝ)), scoreOf true u r = scoreOf true v r) → u = v := by
  have hs : ∀ (p : Nat) (o : Option (Fin p → ℝ)), ∃ W, solved k ⟨1, [[1], [2]]⟩ [3, 5] o = .ok W := by
    intro p o
    unfold solved
    rw [if_pos (by rfl)]
    cases o <;> exact ⟨_, rfl⟩
  refine ⟨?_, ?_, rfl, ?_⟩
  · obtain ⟨W, hW⟩ := hs _ (LinearModel.fitLinear true (toMatrix ⟨1, [[1], [2]]⟩) fun i => ([3, 5] : List ℝ).getD i.val 0)
    exact ⟨_, by simp only [run, step, linear, Function.update_self, hW, bind_ok']; rfl⟩
  · obtain ⟨W, hW⟩ := hs _ (LinearModel.fitRidge 1 true (toMatrix ⟨1, [[1], [2]]⟩) fun i => ([3, 5] : List ℝ).getD i.val 0)
    exact ⟨_, by simp only [run, step, ridge, Function.update_self, hW, bind_ok']; rfl⟩
  · intro u v hu hv h
    match u, v, hu, hv with
    | [a, b], [c, d], _, _ =>
      have h1 := h [1] (by simp)
      have h2 := h [2] (by simp)
      simp [scoreOf, extended] at h1 h2
      have : a = c := by linarith
      subst this
      have : b = d := by linarith
      rw [this]

/-- Beside `C149_lasso`: with step constant 4 the program of two samples without shuffling meets the conditions. -/
example (k : Nat → List Nat) : (⟨1, [[1], [2]]⟩ : DMat ℝ).WF ∧ (⟨1, [[1], [2]]⟩ : DMat ℝ).nrows ≠ 0 ∧
    (∃ w, run (lasso false 4 1 3 false) (fun _ => none) [.construct 0, .fit 0 k ⟨1, [[1], [2]]⟩ [3, 5]] = .ok (w, [.done, .done])) ∧
    ∀ j < 1, (([[1], [2]] : List (List ℝ)).map fun r => r.getD j 0 ^ 2).sum / ((2 : Nat) : ℝ) ≤ 4 := by
  refine ⟨by decide, by decide, ?_, fun j hj => ?_⟩
  · obtain ⟨v, hv, -⟩ := C57_lasso_no_intercept (4 : ℝ) 1 3 none ⟨1, [[1], [2]]⟩ (by decide) (by decide) [3, 5] rfl (by simp)
    exact ⟨_, by simp only [run, step, lasso, Function.update_self, Bool.false_eq_true, if_false, hv, bind_ok']; rfl⟩
  · have : j = 0 := by omega
    subst this
    norm_num

/-- Beside `C149_lasso_intercept`, `C149_perceptron` and `C149_logistic`: an object that exists, and weights of the right number. -/
example : histories ([.construct 0] : List (Op (Nat → List Nat) Query)) 0 ≠ none ∧
    ([2, 1] : List ℝ).length = weightLength true ⟨1, [[1], [2]]⟩ ∧ ([2] : List ℝ).length = weightLength false ⟨1, [[1], [2]]⟩ := by
  refine ⟨by simp [histories, extend], rfl, rfl⟩

/-- Beside `C149_perceptron`: a fit that delivers weights which classify its samples. -/
example : LinearFit.fitPerceptron 0 [0] ⟨1, 1, 0, 1, fun _ => .ok 1, none⟩ ⟨1, [[1], [-2]]⟩ [1, -1] [3] = .ok [(3 : ℚ)] := by decide +kernel

/-- Beside `C149_softmax`: a program with two samples and a batch of four. -/
example : ∃ W w, lastSuccess (softmax 0 ⟨2, 4, 1, 1, fun _ => .ok 1, none⟩ false).fitData [((fun _ => [] : Nat → List Nat),
      (⟨1, [[1], [2]]⟩ : DMat ℝ), ([0, 1] : List ℝ))] = some W ∧ W.nrows = (⟨1, [[7], [9]]⟩ : DMat ℝ).ncols + 1 ∧ W.ncols = 2 ∧
    run (softmax 0 ⟨2, 4, 1, 1, fun _ => .ok 1, none⟩ false) (fun _ => none) [.construct 0, .fit 0 (fun _ => []) ⟨1, [[1], [2]]⟩ [0, 1]] =
      .ok (w, [.done, .done]) := by
  obtain ⟨W, h, h1, h2, -⟩ := C57_softmax_untrained 0 ⟨2, 4, 1, 1, fun _ => .ok 1, none⟩ rfl (fun i _ => ⟨1, rfl⟩) one_pos
    ⟨1, [[1], [2]]⟩ [0, 1] (by decide) (by decide)
  have hf : (softmax 0 ⟨2, 4, 1, 1, fun _ => .ok 1, none⟩ false).fitData (fun _ => []) ⟨1, [[1], [2]]⟩ [0, 1] = .ok W := h
  refine ⟨W, _, ?_, h1, h2.trans ?_, by simp only [run, step, Function.update_self, hf, bind_ok']; rfl⟩
  · simp [lastSuccess, hf]
  · rw [List.dedup_eq_self.mpr (by simp)]
    rfl

end OpenML
