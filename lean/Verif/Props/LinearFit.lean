import Verif.Lemmas.LinearFit
import Verif.Lemmas.Analytic

/-!
# Linear models trained by an optimizer (C57, C58, C80, C81, C82)
-/

namespace OpenML

open SGD SCD Spec LinearFit Loss

set_option linter.unusedSectionVars false

section C57
variable {α : Type} [Field α] [LinearOrder α] [IsStrictOrderedRing α]

theorem optimize_first_ub {W S : Type} (loss : LossFn α W) (weights : S → W) (step : Step α S) (p : Params α) (hb : p.batchSize ≠ 0)
    (hm : p.maxIter ≠ 0) (lr : α) (hdec : p.decay 0 = .ok lr) (X : DMat α) (hX : X.WF) (y : List α) (hy : y.length = X.nrows)
    (hle : p.batchSize ≤ X.nrows) (hp : ∀ q, p.shuffle = some q → (q 0).Perm (List.range X.nrows)) (s : S)
    (hub : ∀ (Xb : DMat α) (yb : List α), Xb.ncols = X.ncols → step s Xb yb lr 0 = .ub) :
    optimize loss weights step p X y s = .ub := by
  obtain ⟨d, hd, hc, _, hdy, _, hdn⟩ := C47_shuffle_pairs p.shuffle 0 X hX y hy hp
  obtain ⟨m, hm'⟩ := Nat.exists_eq_succ_of_ne_zero hm
  obtain ⟨k, hk⟩ := Nat.exists_eq_succ_of_ne_zero (Nat.ne_of_gt (Nat.div_pos hle (Nat.pos_of_ne_zero hb)))
  have hb1 : middleRows d.1.rows (0 * p.batchSize) p.batchSize = .ok (batch p.batchSize 0 d.1.rows) :=
    middleRows_eq_ok.mpr ⟨by rw [Nat.zero_add, Nat.one_mul]; exact hle.trans_eq hdn.symm, rfl⟩
  have hb2 : middleRows d.2 (0 * p.batchSize) p.batchSize = .ok (batch p.batchSize 0 d.2) :=
    middleRows_eq_ok.mpr ⟨by rw [Nat.zero_add, Nat.one_mul, hdy]; exact hle.trans_eq hdn.symm, rfl⟩
  unfold optimize
  rw [if_neg hb, hm', hk, epochLoop, epoch, hd, Res.bind_ok, hdec, Res.bind_ok, batchLoop, hb1, Res.bind_ok, hb2, Res.bind_ok,
    hub ⟨d.1.ncols, batch p.batchSize 0 d.1.rows⟩ _ hc]
  rfl

/-- C57: `LassoRegression` with intercept: the first product has a matrix with `d` columns and a vector with `d + 1` entries. -/
theorem C57_lasso_intercept (l1Ratio lambda : α) (maxIter : Nat) (hm : maxIter ≠ 0) (shuffle : Option (Nat → List Nat)) (X : DMat α)
    (hX : X.WF) (y : List α) (hy : y.length = X.nrows) (hp : ∀ q, shuffle = some q → (q 0).Perm (List.range X.nrows)) :
    fitLasso true l1Ratio lambda maxIter shuffle X y = .ub := by
  obtain ⟨m, rfl⟩ := Nat.exists_eq_succ_of_ne_zero hm
  obtain ⟨d, hd, hc, _⟩ := C47_shuffle_pairs shuffle 0 X hX y hy hp
  unfold fitLasso scd
  rw [scdLoop, hd, Res.bind_ok, scdStep]
  dsimp only
  rw [mseGradient_ub]
  · rfl
  · rw [List.length_replicate, hc]
    simp [numWeights, withOnes]

/-- C57: without intercept `LassoRegression` publishes one weight per feature. -/
theorem C57_lasso_no_intercept (l1Ratio lambda : α) (maxIter : Nat) (shuffle : Option (Nat → List Nat)) (X : DMat α) (hX : X.WF)
    (hd : 0 < X.ncols) (y : List α) (hy : y.length = X.nrows)
    (hp : ∀ q, shuffle = some q → ∀ i, (q i).Perm (List.range X.nrows)) :
    ∃ w, fitLasso false l1Ratio lambda maxIter shuffle X y = .ok w ∧ w.length = X.ncols :=
  scd_total _ l1Ratio lambda X.ncols hd (fun X' y' w _ hy' hc hw => by
    obtain ⟨g, hg, hgl⟩ := mseGradient_total 0 X' y' w hy' (hw.trans hc.symm)
    exact ⟨g, hg, hgl.trans hc⟩) shuffle X.nrows maxIter 0 hp X y _ ⟨rfl, hX, hy, rfl⟩ (by simp [numWeights])

/-- C57: `Perceptron` with intercept: the same mismatch as soon as there is one full mini-batch. -/
theorem C57_perceptron_intercept (lambda : α) (buffer : List α) (p : Params α) (hb : p.batchSize ≠ 0) (hm : p.maxIter ≠ 0) (lr : α)
    (hdec : p.decay 0 = .ok lr) (X : DMat α) (hX : X.WF) (y : List α) (hy : y.length = X.nrows) (hle : p.batchSize ≤ X.nrows)
    (hp : ∀ q, p.shuffle = some q → (q 0).Perm (List.range X.nrows)) (init : List α) (hi : init.length = numWeights true X) :
    fitPerceptron lambda buffer p X y init = .ub := by
  refine optimize_first_ub _ _ _ p hb hm lr hdec X hX y hy hle hp init fun Xb yb hc => ?_
  rw [sgdStep]
  dsimp only
  rw [hingeGradient_ub]
  · rfl
  · rw [hi, hc]
    simp [numWeights, withOnes]

/-- C57: without intercept `Perceptron` publishes weights or throws `runtime_error`. -/
theorem C57_perceptron_no_intercept (lambda : α) (buffer : List α) (p : Params α) (hb : p.batchSize ≠ 0)
    (hdec : ∀ i, ∃ lr, p.decay i = .ok lr) (X : DMat α) (hX : X.WF) (y : List α) (hy : y.length = X.nrows)
    (hp : ∀ q, p.shuffle = some q → ∀ i, (q i).Perm (List.range X.nrows)) (hbuf : buffer.length = X.ncols) (init : List α)
    (hi : init.length = numWeights false X) :
    (∃ w, fitPerceptron lambda buffer p X y init = .ok w) ∨ fitPerceptron lambda buffer p X y init = .throw .runtimeError :=
  (sgd_total _ X.ncols
    (fun X' y' w hX' hy' hc hw => by
      obtain ⟨g, hg, hgl⟩ := hingeGradient_total lambda 0 buffer X' hX' y' w hy' (hw.trans hc.symm) (hbuf.trans hc.symm)
      exact ⟨g, hg, hgl.trans hc⟩)
    (fun X' y' w _ hy' hc hw => hingeEvaluate_total lambda 0 X' y' w hy' (hw.trans hc.symm))
    p hb hdec X hX y hy rfl hp init (by simpa [numWeights] using hi)).1

end C57

/-- C57: `SoftmaxRegression`, which always has an intercept, fails on every data set with a full mini-batch. -/
theorem C57_softmax (lambda : ℝ) (p : Params ℝ) (hb : p.batchSize ≠ 0) (hm : p.maxIter ≠ 0) (lr : ℝ) (hdec : p.decay 0 = .ok lr)
    (X : DMat ℝ) (hX : X.WF) (y : List ℝ) (hy : y.length = X.nrows) (hle : p.batchSize ≤ X.nrows)
    (hp : ∀ q, p.shuffle = some q → (q 0).Perm (List.range X.nrows)) : fitSoftmax lambda p X y = .ub := by
  refine optimize_first_ub _ _ _ p hb hm lr hdec X hX y hy hle hp _ fun Xb yb hc => ?_
  simp only [sgdStep, softmaxGradient, mulMat]
  rw [if_neg]
  · rfl
  · simp [DMat.nrows, hc, numWeights, withOnes]

/-- C57: with fewer samples than a mini-batch (and positive tolerance) nothing is trained: after `noChange + 1` epochs the weights
are all one, with a row per feature, one more for the bias, and a column per distinct label. -/
theorem C57_softmax_untrained (lambda : ℝ) (p : Params ℝ) (hs : p.shuffle = none) (hd : ∀ i < p.maxIter, ∃ lr, p.decay i = .ok lr)
    (ht : 0 < p.tol) (X : DMat ℝ) (y : List ℝ) (hb : X.nrows < p.batchSize) (hm : p.noChange < p.maxIter) :
    ∃ W, fitSoftmax lambda p X y = .ok W ∧ W.nrows = X.ncols + 1 ∧ W.ncols = y.dedup.length ∧
      ∀ r ∈ W.rows, r = List.replicate y.dedup.length 1 := by
  have hn : numClasses y = y.dedup.length := List.card_toFinset y
  refine ⟨_, (C48_large_batch_outcome _ _ _ p (by omega) hs hd ht X y hb _).trans (if_pos hm), ?_, hn, fun r hr => ?_⟩
  · simp [DMat.nrows, numWeights, withOnes]
  · rw [← hn]
    exact List.eq_of_mem_replicate hr

/-- Example for C57: Lasso on two samples, with and without intercept. -/
example : fitLasso true (1 : ℚ) (1 / 10) 5 none ⟨1, [[1], [2]]⟩ [1, 2] = .ub ∧
    fitLasso false (5 / 2 : ℚ) (1 / 10) 5 none ⟨1, [[1], [2]]⟩ [1, 2] = .ok [24 / 25] := by decide +kernel

/-- Example for C57: perceptron on two samples, with and without intercept. -/
example : fitPerceptron (0 : ℚ) [0] ⟨5, 1, 1, 1 / 10, stepDecay (1 / 2) (1 / 2) 10, none⟩ ⟨1, [[1], [-1]]⟩ [1, -1] [0, 0] = .ub ∧
    fitPerceptron (0 : ℚ) [0] ⟨5, 1, 1, 1 / 10, stepDecay (1 / 2) (1 / 2) 10, none⟩ ⟨1, [[1], [-1]]⟩ [1, -1] [0] = .ok [1 / 2] := by
  decide +kernel

/-- Example for `C57_softmax`. -/
example : fitSoftmax 0 ⟨5, 1, 1, 1 / 10, stepDecay (1 / 2) (1 / 2) 10, none⟩ ⟨1, [[1], [-1]]⟩ [0, 1] = .ub :=
  C57_softmax 0 _ (by decide) (by decide) _ rfl _ (by decide) _ rfl (by decide) (fun _ h => by cases h)

section C58

theorem dotL_append_one (r w : List ℝ) (d : Nat) (hr : r.length = d) (hw : w.length = d + 1) :
    dotL (r ++ [1]) w = dotL r (w.take d) + w.getD d 0 := by
  induction r generalizing w d with
  | nil =>
    subst hr
    match w, hw with
    | [a], _ => simp [dotL]
  | cons x r ih =>
    subst hr
    match w, hw with
    | a :: w, hw =>
      have := ih w r.length rfl (by simpa using hw)
      simp only [List.cons_append, dotL_cons, this, List.length_cons, List.take_succ_cons, List.getD_cons_succ]
      ring

/-- Score of a sample: weights times features plus the last weight. -/
theorem predictLabel_eq (w : List ℝ) (X : DMat ℝ) (hX : X.WF) (hw : w.length = X.ncols + 1) :
    predictLabel true w X = .ok (X.rows.map fun r => dotL (r ++ [1]) w) := by
  unfold predictLabel
  rw [if_pos rfl, if_pos (by omega), mulVec_ok _ _ (by rw [List.length_take]; omega), Res.bind_ok,
    readAt_of_lt (by omega), Res.bind_ok, List.map_map]
  congr 1
  apply List.map_congr_left
  intro r hr
  rw [dotL_append_one r w X.ncols (hX r hr) hw]
  simp [List.getD_eq_getElem?_getD, hw]

theorem predictLogistic_eq (w : List ℝ) (X : DMat ℝ) (hX : X.WF) (hw : w.length = X.ncols + 1) :
    predictLogistic w X = .ok (X.rows.map fun r => if 0 < dotL (r ++ [1]) w then 0 else 1) := by
  unfold predictLogistic
  rw [predictLabel_eq w X hX hw, Res.bind_ok, sigmoidV_eq, List.map_map, List.map_map]
  congr 1
  apply List.map_congr_left
  intro r _
  simp only [Function.comp_apply]
  congr 1
  rw [gt_iff_lt, show (0.5 : ℝ) = Real.sigmoid 0 by rw [Real.sigmoid_zero]; norm_num, Real.sigmoid_lt_iff]

theorem crossEntropy_one (s : ℝ) : crossEntropy 1 s = -Real.log (Real.sigmoid s) := by
  unfold crossEntropy
  ring_nf

theorem crossEntropy_zero (s : ℝ) : crossEntropy 0 s = -Real.log (1 - Real.sigmoid s) := by
  unfold crossEntropy
  ring_nf

theorem logEvaluate_single (r w : List ℝ) (a : ℝ) (hw : w.length = r.length + 1) :
    logEvaluate 0 ⟨r.length + 1, [r ++ [1]]⟩ [a] w = .ok (crossEntropy a (dotL (r ++ [1]) w)) := by
  obtain ⟨f, rfl⟩ := exists_ofFn w hw
  have hl : (r ++ [1]).length = r.length + 1 := by simp
  rw [logEvaluate_eq 0 ⟨r.length + 1, [r ++ [1]]⟩ (by intro x hx; rw [List.mem_singleton.mp hx]; exact hl) [a] rfl f,
    dotL_eq_sum _ f hl]
  simp [meanLoss]

/-- C58: for every sample with a non-zero score the label returned by `predict` has a larger log loss than the other label, under
the very loss the weights were trained with. -/
theorem C58_predicts_less_likely (w : List ℝ) (X : DMat ℝ) (hX : X.WF) (hw : w.length = X.ncols + 1) :
    ∃ ys, predictLogistic w X = .ok ys ∧ ys.length = X.nrows ∧
      ∀ (i : Nat) (r : List ℝ) (a : ℝ), X.rows[i]? = some r → ys[i]? = some a →
        (a = 0 ∨ a = 1) ∧ ∃ lp lo, logEvaluate 0 ⟨X.ncols + 1, [r ++ [1]]⟩ [a] w = .ok lp ∧
          logEvaluate 0 ⟨X.ncols + 1, [r ++ [1]]⟩ [1 - a] w = .ok lo ∧ (dotL (r ++ [1]) w ≠ 0 → lo < lp) := by
  refine ⟨_, predictLogistic_eq w X hX hw, by simp [DMat.nrows], fun i r a hr ha => ?_⟩
  rw [List.getElem?_map, hr] at ha
  simp only [Option.map_some, Option.some.injEq] at ha
  have hrl : r.length = X.ncols := hX r (List.mem_of_getElem? hr)
  have hev : ∀ b, logEvaluate 0 ⟨X.ncols + 1, [r ++ [1]]⟩ [b] w = .ok (crossEntropy b (dotL (r ++ [1]) w)) := by
    intro b
    rw [← hrl]
    exact logEvaluate_single r w b (by omega)
  have h01 : a = 0 ∨ a = 1 := by
    subst ha
    split
    · exact Or.inl rfl
    · exact Or.inr rfl
  refine ⟨h01, _, _, hev a, hev (1 - a), fun hne => ?_⟩
  generalize dotL (r ++ [1]) w = s at ha hne
  have hp := Real.sigmoid_pos s
  have h1 := Real.sigmoid_lt_one s
  rcases lt_or_gt_of_ne hne with hs | hs
  · rw [if_neg (not_lt.mpr hs.le)] at ha
    subst ha
    rw [sub_self, crossEntropy_zero, crossEntropy_one]
    have : Real.sigmoid s < 1 / 2 := by
      have := Real.sigmoid_lt_iff.mpr hs
      rw [Real.sigmoid_zero] at this
      norm_num at this ⊢
      exact this
    have := Real.log_lt_log hp (show Real.sigmoid s < 1 - Real.sigmoid s by linarith)
    linarith
  · rw [if_pos hs] at ha
    subst ha
    rw [sub_zero, crossEntropy_zero, crossEntropy_one]
    have : 1 / 2 < Real.sigmoid s := by
      have := Real.sigmoid_lt_iff.mpr hs
      rw [Real.sigmoid_zero] at this
      norm_num at this ⊢
      exact this
    have := Real.log_lt_log (by linarith) (show 1 - Real.sigmoid s < Real.sigmoid s by linarith)
    linarith

/-- C58: if the weights separate the training data in the sense of the training loss (positive score for label 1, negative for
label 0), `predict` gets every sample wrong. -/
theorem C58_all_wrong (w : List ℝ) (X : DMat ℝ) (hX : X.WF) (hw : w.length = X.ncols + 1) (y : List ℝ) (hy : y.length = X.nrows)
    (hsep : ∀ (i : Nat) (r : List ℝ) (a : ℝ), X.rows[i]? = some r → y[i]? = some a →
      (a = 1 ∧ 0 < dotL (r ++ [1]) w) ∨ (a = 0 ∧ dotL (r ++ [1]) w < 0)) :
    predictLogistic w X = .ok (y.map fun a => 1 - a) := by
  rw [predictLogistic_eq w X hX hw]
  congr 1
  apply List.ext_getElem?
  intro i
  rw [List.getElem?_map, List.getElem?_map]
  by_cases hi : i < X.rows.length
  · have hiy : i < y.length := by rw [hy]; exact hi
    rw [List.getElem?_eq_getElem hi, List.getElem?_eq_getElem hiy, Option.map_some, Option.map_some]
    rcases hsep i _ _ (List.getElem?_eq_getElem hi) (List.getElem?_eq_getElem hiy) with ⟨h1, h2⟩ | ⟨h1, h2⟩
    · rw [if_pos h2, h1, sub_self]
    · rw [if_neg (not_lt.mpr h2.le), h1, sub_zero]
  · have hiy : ¬ i < y.length := by rw [hy]; exact hi
    rw [List.getElem?_eq_none (not_lt.mp hi), List.getElem?_eq_none (not_lt.mp hiy)]
    rfl

/-- C58: `predict_prob` has two columns with positive entries that sum to one; the first one is the probability of label 1 in the
training loss, and `predict` returns the number of the column with the larger entry. -/
theorem C58_prob (w : List ℝ) (X : DMat ℝ) (hX : X.WF) (hw : w.length = X.ncols + 1) :
    ∃ P ys, logisticProb w X = .ok P ∧ predictLogistic w X = .ok ys ∧ P.ncols = 2 ∧ P.nrows = X.nrows ∧
      ∀ (i : Nat) (r : List ℝ), X.rows[i]? = some r → ∃ p q a, P.rows[i]? = some [p, q] ∧ ys[i]? = some a ∧ 0 < p ∧ 0 < q ∧ p + q = 1 ∧
        p = 1 / (1 + Real.exp (-dotL (r ++ [1]) w)) ∧ (a = 0 ↔ q < p) := by
  refine ⟨⟨2, X.rows.map fun r => [Real.sigmoid (dotL (r ++ [1]) w), 1 - Real.sigmoid (dotL (r ++ [1]) w)]⟩, _, ?_,
    predictLogistic_eq w X hX hw, rfl, by simp [DMat.nrows], fun i r hr => ?_⟩
  · unfold logisticProb
    rw [predictLabel_eq w X hX hw, Res.bind_ok, sigmoidV_eq]
    unfold MatOps.hstack
    rw [if_neg (by simp [DMat.nrows])]
    simp only [List.map_map, List.zipWith_map_left, List.zipWith_map_right, List.zipWith_self]
    rfl
  · refine ⟨_, _, _, by rw [List.getElem?_map, hr]; rfl, by rw [List.getElem?_map, hr]; rfl, Real.sigmoid_pos _,
      sub_pos.mpr (Real.sigmoid_lt_one _), by ring, by rw [Real.sigmoid_def, one_div], ?_⟩
    dsimp only
    generalize dotL (r ++ [1]) w = s
    have h := Real.sigmoid_lt_iff (a := 0) (b := s)
    rw [Real.sigmoid_zero] at h
    constructor
    · intro h0
      have hs : 0 < s := by
        by_contra hc
        rw [if_neg hc] at h0
        norm_num at h0
      have := h.mpr hs
      norm_num at this
      linarith
    · intro hlt
      rw [if_pos (h.mp (by norm_num; linarith))]

/-- C104: what the training of logistic regression evaluates is the mean negative logarithm of what `predict_prob` reports for the
same weights: of the first column for samples with label 1, of the second one for samples with label 0. -/
theorem C104_training_loss (w : List ℝ) (X : DMat ℝ) (hX : X.WF) (hw : w.length = X.ncols + 1) (y : List ℝ) (hy : y.length = X.nrows)
    (h01 : ∀ a ∈ y, a = 0 ∨ a = 1) :
    ∃ P, logisticProb w X = .ok P ∧ P.nrows = X.nrows ∧
      logEvaluate 0 (withOnes X) y w = .ok ((List.zipWith (fun r a => -Real.log (r.getD (if a = 1 then 0 else 1) 0)) P.rows y).sum /
        (X.nrows : ℝ)) := by
  refine ⟨⟨2, X.rows.map fun r => [Real.sigmoid (dotL (r ++ [1]) w), 1 - Real.sigmoid (dotL (r ++ [1]) w)]⟩, ?_,
    by simp [DMat.nrows], ?_⟩
  · unfold logisticProb
    rw [predictLabel_eq w X hX hw, Res.bind_ok, sigmoidV_eq]
    unfold MatOps.hstack
    rw [if_neg (by simp [DMat.nrows])]
    simp only [List.map_map, List.zipWith_map_left, List.zipWith_map_right, List.zipWith_self]
    rfl
  · have hn : (withOnes X).nrows = X.nrows := by simp [withOnes, DMat.nrows]
    unfold logEvaluate
    rw [mulVec_ok _ _ (by rw [hw]; rfl), Res.bind_ok, sigmoidV_eq]
    dsimp only
    rw [if_neg (by simp [hy, withOnes, DMat.nrows]), hn]
    unfold subV
    rw [if_pos (by simp), Res.bind_ok, penalty, mul_zero, add_zero]
    congr 3
    simp only [withOnes]
    clear hy hX hn
    generalize X.rows = rows
    induction rows generalizing y with
    | nil => simp
    | cons r rows ih =>
      cases y with
      | nil => simp
      | cons a y =>
        simp only [List.map_cons, List.zipWith_cons_cons]
        rw [ih y fun b hb => h01 b (List.mem_cons_of_mem _ hb)]
        congr 1
        rcases h01 a List.mem_cons_self with rfl | rfl <;> simp

end C58

/-- Example for C104: two samples with labels 1 and 0 and weights that are neither zero nor separating. -/
example : (⟨1, [[2], [3]]⟩ : DMat ℝ).WF ∧ ([1, -1] : List ℝ).length = (⟨1, [[2], [3]]⟩ : DMat ℝ).ncols + 1 ∧
    ∀ a ∈ ([1, 0] : List ℝ), a = 0 ∨ a = 1 := by
  refine ⟨by decide, rfl, ?_⟩
  simp

/-- Example for C58: weight 1, bias 0; the samples 2 and -2 with labels 1 and 0 are separated, and both are predicted wrong. -/
example : predictLogistic [1, 0] ⟨1, [[2], [-2]]⟩ = .ok [1 - 1, 1 - 0] := by
  refine C58_all_wrong [1, 0] ⟨1, [[2], [-2]]⟩ (by decide) rfl [1, 0] rfl fun i r a hr ha => ?_
  match i with
  | 0 =>
    simp only [List.getElem?_cons_zero, Option.some.injEq] at hr ha
    subst hr ha
    exact Or.inl ⟨rfl, by norm_num [dotL]⟩
  | 1 =>
    simp only [List.getElem?_cons_succ, List.getElem?_cons_zero, Option.some.injEq] at hr ha
    subst hr ha
    exact Or.inr ⟨rfl, by norm_num [dotL]⟩
  | i + 2 => simp at hr

section C80

/-- The combinations of penalty and solver that are supported. -/
def Spec.Supported (penalty solver : String) : Prop :=
  ((penalty = "l2" ∨ penalty = "None") ∧ (solver = "sgd" ∨ solver = "sag" ∨ solver = "lbfgs")) ∨ (penalty = "l1" ∧ solver = "scd")

theorem logGradient_total (lambda : ℝ) (X : DMat ℝ) (hX : X.WF) (y w : List ℝ) (hy : y.length = X.nrows) (hw : w.length = X.ncols) :
    ∃ g, logGradient lambda X y w = .ok g ∧ g.length = X.ncols := by
  obtain ⟨f, rfl⟩ := exists_ofFn w hw
  exact ⟨_, logGradient_eq lambda X hX y hy f, by simp⟩

theorem logEvaluate_total (lambda : ℝ) (X : DMat ℝ) (hX : X.WF) (y w : List ℝ) (hy : y.length = X.nrows) (hw : w.length = X.ncols) :
    ∃ l, logEvaluate lambda X y w = .ok l := by
  obtain ⟨f, rfl⟩ := exists_ofFn w hw
  exact ⟨_, logEvaluate_eq lambda X hX y hy f⟩

theorem withOnes_wf (X : DMat ℝ) (hX : X.WF) : (withOnes X).WF := by
  intro r hr
  obtain ⟨r', hr', rfl⟩ := List.mem_map.mp hr
  simp [withOnes, hX r' hr']

/-- C80: `LogisticRegression::fit` throws `invalid_argument` exactly for the unsupported combinations of penalty and solver; with
the other ones `sgd` and `sag` publish weights or throw `runtime_error`, and `scd` publishes. -/
theorem C80_solver_penalty (lambda l1Ratio : ℝ) (penalty solver : String) (p : Params ℝ) (hb : p.batchSize ≠ 0)
    (hdec : ∀ i, ∃ lr, p.decay i = .ok lr) (lbfgs : LossFn ℝ (List ℝ) → DMat ℝ → List ℝ → List ℝ → Res (List ℝ))
    (hlb : ∀ l X y w, lbfgs l X y w ≠ .throw .invalidArgument) (X : DMat ℝ) (hX : X.WF) (y : List ℝ) (hy : y.length = X.nrows)
    (hp : ∀ q, p.shuffle = some q → ∀ i, (q i).Perm (List.range X.nrows)) (init : List ℝ) (hi : init.length = X.ncols + 1) :
    (fitLogistic lambda l1Ratio penalty solver p lbfgs X y init = .throw .invalidArgument ↔ ¬ Supported penalty solver) ∧
    (Supported penalty solver → solver ≠ "lbfgs" →
      (∃ w, fitLogistic lambda l1Ratio penalty solver p lbfgs X y init = .ok w) ∨
        (solver ≠ "scd" ∧ fitLogistic lambda l1Ratio penalty solver p lbfgs X y init = .throw .runtimeError)) := by
  have hn : (withOnes X).nrows = X.nrows := by simp [withOnes, DMat.nrows]
  have hyn : y.length = (withOnes X).nrows := hy.trans hn.symm
  have hpn : ∀ q, p.shuffle = some q → ∀ i, (q i).Perm (List.range (withOnes X).nrows) := by rw [hn]; exact hp
  have hs := sgd_total (⟨logEvaluate lambda, logGradient lambda⟩ : LossFn ℝ (List ℝ)) (X.ncols + 1)
    (fun X' y' w hX' hy' hc hw => by
      obtain ⟨g, hg, hgl⟩ := logGradient_total lambda X' hX' y' w hy' (hw.trans hc.symm)
      exact ⟨g, hg, hgl.trans hc⟩)
    (fun X' y' w hX' hy' hc hw => logEvaluate_total lambda X' hX' y' w hy' (hw.trans hc.symm))
    p hb hdec (withOnes X) (withOnes_wf X hX) y hyn rfl hpn init hi
  obtain ⟨ws, hws, _⟩ := scd_total (⟨logEvaluate lambda, logGradient lambda⟩ : LossFn ℝ (List ℝ)) l1Ratio lambda (X.ncols + 1)
    (by omega)
    (fun X' y' w hX' hy' hc hw => by
      obtain ⟨g, hg, hgl⟩ := logGradient_total lambda X' hX' y' w hy' (hw.trans hc.symm)
      exact ⟨g, hg, hgl.trans hc⟩)
    p.shuffle X.nrows p.maxIter 0 hp (withOnes X) y init ⟨rfl, withOnes_wf X hX, hyn, hn⟩ hi
  have hscd : scd (⟨logEvaluate lambda, logGradient lambda⟩ : LossFn ℝ (List ℝ)) l1Ratio lambda p.maxIter p.shuffle (withOnes X) y
      init = .ok ws := hws
  unfold fitLogistic Supported
  dsimp only
  by_cases h2 : penalty = "l2" ∨ penalty = "None"
  · have hnl1 : penalty ≠ "l1" := by
      rcases h2 with rfl | rfl <;> decide
    rw [if_pos h2]
    by_cases h3 : solver = "sgd"
    · rw [if_pos h3]
      have hns : solver ≠ "scd" := by rw [h3]; decide
      rcases hs.1 with ⟨w, hw⟩ | hw
      · simp [hw, h2, h3]
      · simp [hw, h2, h3]
    · rw [if_neg h3]
      by_cases h4 : solver = "sag"
      · rw [if_pos h4]
        rcases hs.2 with ⟨w, hw⟩ | hw
        · simp [hw, h2, h4]
        · simp [hw, h2, h4]
      · rw [if_neg h4]
        by_cases h5 : solver = "lbfgs"
        · rw [if_pos h5]
          simp [h2, h5, hlb]
        · rw [if_neg h5]
          simp [h3, h4, h5, hnl1]
  · rw [if_neg h2]
    by_cases h3 : penalty = "l1"
    · rw [if_pos h3]
      by_cases h4 : solver = "scd"
      · rw [if_pos h4, hscd]
        simp [h3, h4]
      · rw [if_neg h4]
        simp [h3, h4]
    · rw [if_neg h3]
      simp [h2, h3]

end C80

/-- Example for C80: one sample, coordinate descent with penalty "l2" is rejected, with "l1" it runs. -/
example : ¬ Supported "l2" "scd" ∧ Supported "l1" "scd" ∧ ¬ Supported "none" "sgd" := by
  unfold Supported
  decide

/-- The other hypotheses of C80 hold for one sample with one feature, steps of size 1 and an optimizer that returns the start: so coordinate
descent with "l2" throws. -/
example : fitLogistic 1 1 "l2" "scd" ⟨10, 1, 3, 0, fun _ => .ok 1, some fun _ => [0]⟩ (fun _ _ _ w => .ok w) ⟨1, [[2]]⟩ [1] [0, 0] =
    .throw .invalidArgument := by
  refine (C80_solver_penalty 1 1 "l2" "scd" ⟨10, 1, 3, 0, fun _ => .ok 1, some fun _ => [0]⟩ one_ne_zero (fun _ => ⟨1, rfl⟩) (fun _ _ _ w => .ok w)
    (fun _ _ _ _ => by simp) ⟨1, [[2]]⟩ (fun r hr => by simp at hr; simp [hr]) [1] rfl (fun q hq i => ?_) [0, 0] rfl).1.mpr ?_
  · cases hq
    exact List.Perm.refl _
  · unfold Supported
    decide

end OpenML
