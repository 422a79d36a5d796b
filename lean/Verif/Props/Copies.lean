import Verif.Lemmas.CopiesFits
import Verif.Props.LinearModel

/-!
# C162: training on every sample several times
-/

set_option linter.unusedSectionVars false

namespace OpenML
open Spec

namespace Copies
open DTree

variable {α : Type} [Field α] [LinearOrder α] [IsStrictOrderedRing α] {R : Type} [LinearOrder R]

theorem tree_answers {imp : List α → List α → List α → Res R} (hi : Relative imp) (r : Nat) (hr : 0 < r) (X X' : DMat α)
    (y y' : List α) (h : Copied r X y X' y') (hn : y ≠ []) (start : R) (P : Params R) (h3 : 3 ≤ P.minSplit) (old : List α) :
    ∃ M M', fit start imp P old X y = .ok M ∧
      fit start imp ⟨r * P.minSplit, r * P.minLeaf, P.maxDepth, P.minDecrease⟩ old X' y' = .ok M' ∧ M'.classes = M.classes ∧
      ∀ Z, (∀ x ∈ Z, x ∈ X.rows) → predictProb M' Z = predictProb M Z ∧ predict M' Z = predict M Z := by
  have hn' : y' ≠ [] := by
    intro h0
    have := length_copies r _ _ (targets h)
    rw [h0] at this
    have h1 := List.length_pos_of_ne_nil hn
    have h2 := Nat.mul_pos hr h1
    rw [List.length_nil] at this
    omega
  have h3' : 3 ≤ r * P.minSplit := h3.trans (Nat.le_mul_of_pos_left _ hr)
  obtain ⟨M, hM⟩ := C65_returns P h3 old X h.wf y h.len hn start imp hi.total
  obtain ⟨M', hM'⟩ := C65_returns ⟨r * P.minSplit, r * P.minLeaf, P.maxDepth, P.minDecrease⟩ h3' old X' h.wf' y' h.len' hn' start
    imp hi.total
  obtain ⟨e1, e2⟩ := (DTree.fit_eq_ok start imp P old X y h.len M).mp hM
  obtain ⟨f1, f2⟩ := (DTree.fit_eq_ok start imp _ old X' y' h.len' M').mp hM'
  have hkeys : Impurity.keys (old ++ y') = Impurity.keys (old ++ y) := by
    refine List.Pairwise.eq_of_mem_iff (Impurity.keys_sorted _) (Impurity.keys_sorted _) fun k => ?_
    rw [Impurity.mem_keys, Impurity.mem_keys, List.mem_append, List.mem_append, KMeans.mem_copies r hr _ _ (targets h) k]
  rw [hkeys] at f1 f2
  have hsame := build_copies hi hr (Impurity.keys (old ++ y)) start P h3 _ X X' y y' h 0 M.root M'.root e2 f2
  have hp : ∀ Z, (∀ x ∈ Z, x ∈ X.rows) → predictProb M' Z = predictProb M Z := by
    intro Z hZ
    unfold predictProb
    induction Z with
    | nil => rfl
    | cons x Z ih =>
      simp only [mapRes]
      rw [ih fun z hz => hZ z (List.mem_cons_of_mem _ hz), hsame.route x (hZ x List.mem_cons_self)]
      cases route x M.root with
      | ok v => simp only [Res.bind_ok, probs_copies hr]
      | _ => rfl
  have hcl : M'.classes = M.classes := by rw [f1, e1]
  refine ⟨M, M', hM, hM', hcl, fun Z hZ => ⟨hp Z hZ, ?_⟩⟩
  unfold DTree.predict
  rw [hp Z hZ, hcl]

end Copies

section trees
open DTree
variable {α : Type} [Field α] [LinearOrder α] [IsStrictOrderedRing α]

/-- C162. A classification tree with criterion `gini` that is fitted to every sample `r` times, with `r`-fold
`min_samples_split` and `min_samples_leaf`, knows the same classes and answers the same probabilities and classes for all
training samples as the tree fitted to every sample once. -/
theorem C162_gini (r : Nat) (hr : 0 < r) (X X' : DMat α) (y y' : List α) (h : Copied r X y X' y') (hn : y ≠ []) (start : α)
    (P : Params α) (h3 : 3 ≤ P.minSplit) (old : List α) :
    ∃ M M', fit start giniScore P old X y = .ok M ∧
      fit start giniScore ⟨r * P.minSplit, r * P.minLeaf, P.maxDepth, P.minDecrease⟩ old X' y' = .ok M' ∧
      M'.classes = M.classes ∧
      ∀ Z, (∀ x ∈ Z, x ∈ X.rows) → predictProb M' Z = predictProb M Z ∧ predict M' Z = predict M Z :=
  Copies.tree_answers Copies.relative_gini r hr X X' y y' h hn start P h3 old

/-- Beside `C162_gini`: three samples once and twice, and the tree of the doubled samples answers the training samples. -/
example : Copied 2 (⟨1, [[0], [2], [2]]⟩ : DMat ℚ) [0, 1, 1] ⟨1, [[0], [2], [2], [2], [0], [2]]⟩ [0, 1, 1, 1, 0, 1] ∧
    (do
      let M ← fit (1 / 1000) giniScore ⟨6, 2, 5, 0⟩ [] (⟨1, [[0], [2], [2], [2], [0], [2]]⟩ : DMat ℚ) [0, 1, 1, 1, 0, 1]
      predict M [[0], [2]]) = .ok [0, 1] :=
  ⟨⟨by simp [DMat.WF], by simp [DMat.WF], rfl, rfl, rfl, by decide +kernel⟩, by decide +kernel⟩

/-- C162. The same for the criterion `entropy`. -/
theorem C162_entropy (r : Nat) (hr : 0 < r) (X X' : DMat α) (y y' : List α) (h : Copied r X y X' y') (hn : y ≠ []) (start : ℝ)
    (P : Params ℝ) (h3 : 3 ≤ P.minSplit) (old : List α) :
    ∃ M M', fit start entropyScore P old X y = .ok M ∧
      fit start entropyScore ⟨r * P.minSplit, r * P.minLeaf, P.maxDepth, P.minDecrease⟩ old X' y' = .ok M' ∧
      M'.classes = M.classes ∧
      ∀ Z, (∀ x ∈ Z, x ∈ X.rows) → predictProb M' Z = predictProb M Z ∧ predict M' Z = predict M Z :=
  Copies.tree_answers Copies.relative_entropy r hr X X' y y' h hn start P h3 old

/-- Three samples once and twice. -/
example : Copied 2 (⟨1, [[0], [2], [2]]⟩ : DMat ℚ) [0, 1, 1] ⟨1, [[0], [2], [2], [2], [0], [2]]⟩ [0, 1, 1, 1, 0, 1] :=
  ⟨by simp [DMat.WF], by simp [DMat.WF], rfl, rfl, rfl, by decide +kernel⟩

/-- C162. Samples that were not trained on may be answered differently, because values that occur several times become
thresholds themselves: the sample 1/2 is nearer to the training sample of class 0 and is answered 0, but 1 if every sample is
given twice. -/
theorem C162_new_sample : ∃ (X X' : DMat ℚ) (y y' : List ℚ) (M M' : Model ℚ), Copied 2 X y X' y' ∧
    fit (1 / 1000) giniScore ⟨3, 1, 5, 0⟩ [] X y = .ok M ∧ fit (1 / 1000) giniScore ⟨6, 2, 5, 0⟩ [] X' y' = .ok M' ∧
    predict M [[1 / 2]] = .ok [0] ∧ predict M' [[1 / 2]] = .ok [1] :=
  ⟨⟨1, [[0], [2], [2]]⟩, ⟨1, [[0], [2], [2], [2], [0], [2]]⟩, [0, 1, 1], [0, 1, 1, 1, 0, 1],
    ⟨[0, 1], .node [1, 2] (some (0, 1)) (.node [1, 0] none .null .null) (.node [0, 2] none .null .null)⟩,
    ⟨[0, 1], .node [2, 4] (some (0, 0)) (.node [2, 0] none .null .null) (.node [0, 4] none .null .null)⟩,
    ⟨by simp [DMat.WF], by simp [DMat.WF], rfl, rfl, rfl, by decide +kernel⟩,
    by decide +kernel, by decide +kernel, by decide +kernel, by decide +kernel⟩

/-- C162. A regression tree with `squared_error` cannot be fitted to repeated samples: unless the root is a leaf by
`min_samples_split` or `min_stdev`, the variance of no numbers is taken. -/
theorem C162_regression (r : Nat) (hr : 2 ≤ r) (X X' : DMat α) (y y' : List α) (h : Copied r X y X' y') (h0 : 0 < X.ncols)
    (h3 : 3 ≤ X'.nrows) (m start : α) (P : Params α) (hs : P.minSplit ≤ X'.nrows) (hstop : stdevStop m y' = false) :
    fitRegressor m start squaredScore P X' y' = .ub := by
  have hr0 : 0 < r := by omega
  have hlen : (X.col 0).length = X.nrows := DMat.length_col h.wf h0
  have hne : (X.col 0).toFinset.Nonempty := by
    rw [List.toFinset_nonempty_iff]
    intro h1
    rw [h1] at hlen
    have := Copies.nrows h
    rw [← hlen] at this
    simp at this
    omega
  obtain ⟨a, ha, hmax⟩ := Finset.exists_max_image _ id hne
  simp only [List.mem_toFinset, id] at ha hmax
  refine C69_repeated_maximum m start P X' h.wf' h3 hs y' h.len' hstop 0 (by rw [h.cols]; exact h0) a ?_ fun c hc =>
    hmax c ((Copies.mem_col h hr0 0 c).mp hc)
  rw [Copies.count_copies r _ _ (Copies.col h 0)]
  have := List.count_pos_iff.mpr ha
  nlinarith

/-- Two samples given twice: targets 1 and 3. -/
example : stdevStop (1 / 10) [(1 : ℚ), 1, 3, 3] = false ∧
    fitRegressor (1 / 10) (1 / 1000) squaredScore ⟨2, 0, 5, 0⟩ (⟨1, [[0], [0], [2], [2]]⟩ : DMat ℚ) [1, 1, 3, 3] = .ub := by
  decide +kernel

end trees

section linear
open LinearModel Matrix

namespace Copies

theorem sum_fibres {m n r : Nat} (σ : Fin m → Fin n) (hσ : ∀ i, (Finset.univ.filter fun j => σ j = i).card = r) (g : Fin n → ℝ) :
    ∑ j, g (σ j) = r * ∑ i, g i := by
  rw [← Finset.sum_fiberwise Finset.univ σ, Finset.mul_sum]
  refine Finset.sum_congr rfl fun i _ => ?_
  rw [Finset.sum_congr rfl (g := fun _ => g i) fun j hj => by rw [(Finset.mem_filter.mp hj).2], Finset.sum_const, hσ, nsmul_eq_mul]

theorem inverse_smul {p : Nat} (c : ℝ) (hc : c ≠ 0) (A : Matrix (Fin p) (Fin p) ℝ) :
    inverse (c • A) = (inverse A).map fun B => c⁻¹ • B := by
  unfold inverse
  rw [Matrix.det_smul]
  by_cases h : A.det = 0
  · simp [h]
  · rw [if_neg h, if_neg (mul_ne_zero (pow_ne_zero _ hc) h), Option.map_some]
    congr 1
    have := invertibleOfNonzero hc
    rw [Matrix.inv_smul A c (Ne.isUnit h), invOf_eq_inv]

end Copies

/-- C162. Ridge regression fitted to every sample `r` times with `r`-fold `lambda` gives the weights of the fit to every sample
once; also for linear regression, where no parameter changes. Either fit fails exactly if the other does. -/
theorem C162_ridge {m n d : Nat} (r : Nat) (hr : 0 < r) (σ : Fin m → Fin n)
    (hσ : ∀ i, (Finset.univ.filter fun j => σ j = i).card = r) (lambda : ℝ) (b : Bool) (X : Matrix (Fin n) (Fin d) ℝ)
    (y : Fin n → ℝ) :
    fitRidge (r * lambda) b (X.submatrix σ id) (y ∘ σ) = fitRidge lambda b X y ∧
    fitLinear b (X.submatrix σ id) (y ∘ σ) = fitLinear b X y := by
  have hr' : (r : ℝ) ≠ 0 := by exact_mod_cast hr.ne'
  have hd : design (X.submatrix σ id) b = (design X b).submatrix σ id := by
    cases b
    · rfl
    · ext i j
      rfl
  have hg : ((design X b).submatrix σ id)ᵀ * (design X b).submatrix σ id = (r : ℝ) • ((design X b)ᵀ * design X b) := by
    ext i j
    simp only [Matrix.mul_apply, Matrix.transpose_apply, Matrix.submatrix_apply, id, Matrix.smul_apply, smul_eq_mul]
    exact Copies.sum_fibres σ hσ fun k => design X b k i * design X b k j
  have hy : ((design X b).submatrix σ id)ᵀ *ᵥ (y ∘ σ) = (r : ℝ) • ((design X b)ᵀ *ᵥ y) := by
    ext i
    simp only [Matrix.mulVec, dotProduct, Matrix.transpose_apply, Matrix.submatrix_apply, id, Pi.smul_apply, smul_eq_mul,
      Function.comp]
    exact Copies.sum_fibres σ hσ fun k => design X b k i * y k
  have key : ∀ mu : ℝ, fitRidge (r * mu) b (X.submatrix σ id) (y ∘ σ) = fitRidge mu b X y := by
    intro mu
    simp only [fitRidge, hd, hg, ← Matrix.mulVec_mulVec, hy]
    rw [← smul_smul, ← smul_add, Copies.inverse_smul _ hr']
    cases inverse ((design X b)ᵀ * design X b + mu • 1) with
    | none => rfl
    | some A =>
      simp only [Option.map_some, Option.bind_eq_bind, Option.bind_some, Matrix.smul_mulVec, Matrix.mulVec_smul, smul_smul]
      rw [mul_inv_cancel₀ hr', one_smul]
  refine ⟨key lambda, ?_⟩
  rw [← C56_ridge_zero, ← C56_ridge_zero, ← key 0, mul_zero]

/-- Six samples that are two copies of three. -/
example : ∀ i : Fin 3, (Finset.univ.filter fun j : Fin 6 => (![0, 1, 2, 2, 0, 1] : Fin 6 → Fin 3) j = i).card = 2 := by decide

end linear

section losses
open Loss SGD LinearFit

/-- C162. Squared error with penalty: with `r`-fold `lambda`, loss and gradient of the copies are those of the original at all
weights. -/
theorem C162_mse {α : Type} [Field α] [CharZero α] (r : Nat) (hr : 0 < r) (X X' : DMat α) (y y' : List α)
    (h : Copied r X y X' y') (lambda : α) (w : List α) :
    mseEvaluate (r * lambda) X' y' w = mseEvaluate lambda X y w ∧ mseGradient (r * lambda) X' y' w = mseGradient lambda X y w :=
  ⟨Copies.mseEvaluate_copies h hr lambda w, Copies.mseGradient_copies h hr lambda w⟩

/-- Beside `C162_mse`: the loss of two samples with penalty 1, and of each of them twice with penalty 2. -/
example : mseEvaluate (1 : ℚ) ⟨1, [[1], [-1]]⟩ [2, 4] [1] = mseEvaluate (2 : ℚ) ⟨1, [[-1], [1], [1], [-1]]⟩ [4, 2, 2, 4] [1] ∧
    Copied 2 (⟨1, [[1], [-1]]⟩ : DMat ℚ) [2, 4] ⟨1, [[-1], [1], [1], [-1]]⟩ [4, 2, 2, 4] :=
  ⟨by decide +kernel, by simp [DMat.WF], by simp [DMat.WF], rfl, rfl, rfl, by decide +kernel⟩

/-- C162. The same for the logarithmic loss. -/
theorem C162_log (r : Nat) (hr : 0 < r) (X X' : DMat ℝ) (y y' : List ℝ) (h : Copied r X y X' y') (lambda : ℝ) (w : List ℝ) :
    logEvaluate (r * lambda) X' y' w = logEvaluate lambda X y w ∧ logGradient (r * lambda) X' y' w = logGradient lambda X y w :=
  ⟨Copies.logEvaluate_copies h hr lambda w, Copies.logGradient_copies h hr lambda w⟩

/-- C162. Logistic regression by L-BFGS: with `r`-fold `lambda` the copies lead to the same outcome as the original, for all
parameters of the optimizer and all initial weights. -/
theorem C162_lbfgs (r : Nat) (hr : 0 < r) (X X' : DMat ℝ) (y y' : List ℝ) (h : Copied r X y X' y') (lambda : ℝ) (sqrt : ℝ → ℝ)
    (p : LBFGS.Params ℝ) (junk : Nat → ℝ) (fuel : Nat) (w : List ℝ) :
    LBFGS.optimize sqrt p junk fuel ⟨logEvaluate (r * lambda), logGradient (r * lambda)⟩ (withOnes X') y' w =
      LBFGS.optimize sqrt p junk fuel ⟨logEvaluate lambda, logGradient lambda⟩ (withOnes X) y w :=
  Copies.optimize_congr _ _ _ _ _ _ (Copies.logEvaluate_copies (Copies.withOnes_copies h) hr lambda)
    (Copies.logGradient_copies (Copies.withOnes_copies h) hr lambda) sqrt p junk fuel w

/-- Beside `C162_log` and `C162_lbfgs`: two labelled samples, and each of them twice. -/
example : Copied 2 (⟨1, [[1], [-1]]⟩ : DMat ℝ) [1, 0] ⟨1, [[1], [1], [-1], [-1]]⟩ [1, 1, 0, 0] :=
  ⟨by simp [DMat.WF], by simp [DMat.WF], rfl, rfl, rfl, by
    simp only [List.zip_cons_cons, List.zip_nil_left, List.replicate, List.flatten_cons, List.flatten_nil, List.cons_append,
      List.nil_append]
    exact List.Perm.cons _ (List.Perm.swap _ _ _)⟩

/-- C162. The lasso fitted to copies gives the weights of the fit to the original - with the same `lambda`, whatever the
shuffles of either are. -/
theorem C162_lasso {α : Type} [Field α] [LinearOrder α] [IsStrictOrderedRing α] (r : Nat) (hr : 0 < r) (X X' : DMat α)
    (y y' : List α) (h : Copied r X y X' y') (intercept : Bool) (l1Ratio lambda : α) (maxIter : Nat)
    (sh sh' : Option (Nat → List Nat)) (hp : ∀ p, sh = some p → ∀ i, (p i).Perm (List.range X.nrows))
    (hp' : ∀ p, sh' = some p → ∀ i, (p i).Perm (List.range X'.nrows)) :
    fitLasso intercept l1Ratio lambda maxIter sh' X' y' = fitLasso intercept l1Ratio lambda maxIter sh X y := by
  have hnw : numWeights intercept X' = numWeights intercept X := by
    cases intercept <;> simp [numWeights, withOnes, h.cols]
  unfold fitLasso SCD.scd
  rw [hnw]
  refine Copies.scd_copies _ _ l1Ratio lambda sh sh' (fun Z z Z' z' hd w => ?_) maxIter 0 X X' y y' _ h hp hp'
  have := Copies.mseGradient_copies hd hr 0 w
  rwa [mul_zero] at this

/-- A lasso fit to two samples, and to each of them twice in another order. -/
example : fitLasso false (1 : ℚ) (1 / 4) 3 none ⟨2, [[1, 0], [0, 1]]⟩ [2, -1] = .ok [9 / 8, -1 / 4] ∧
    fitLasso false (1 : ℚ) (1 / 4) 3 (some fun _ => [1, 2, 0, 3]) ⟨2, [[1, 0], [0, 1], [0, 1], [1, 0]]⟩ [2, -1, -1, 2] =
      .ok [9 / 8, -1 / 4] := by decide +kernel

/-- C162. Gradient descent with all samples in one batch: with `r`-fold `batch_size` and `lambda` and the `r`-th part of the
tolerance the copies lead to the same outcome as the original, whatever the shuffles of either are, for the squared error and
the logarithmic loss. -/
theorem C162_sgd (r : Nat) (hr : 0 < r) (X X' : DMat ℝ) (y y' : List ℝ) (h : Copied r X y X' y') (lambda : ℝ) (p : Params ℝ)
    (hb : p.batchSize = X.nrows) (sh' : Option (Nat → List Nat))
    (hp : ∀ q, p.shuffle = some q → ∀ i, (q i).Perm (List.range X.nrows))
    (hp' : ∀ q, sh' = some q → ∀ i, (q i).Perm (List.range X'.nrows)) (w : List ℝ) :
    sgd ⟨mseEvaluate (r * lambda), mseGradient (r * lambda)⟩ clipGrad vanillaUpdate
        { p with batchSize := r * p.batchSize, tol := p.tol / r, shuffle := sh' } X' y' w =
      sgd ⟨mseEvaluate lambda, mseGradient lambda⟩ clipGrad vanillaUpdate p X y w ∧
    sgd ⟨logEvaluate (r * lambda), logGradient (r * lambda)⟩ clipGrad vanillaUpdate
        { p with batchSize := r * p.batchSize, tol := p.tol / r, shuffle := sh' } X' y' w =
      sgd ⟨logEvaluate lambda, logGradient lambda⟩ clipGrad vanillaUpdate p X y w :=
  ⟨Copies.sgd_copies _ _ _ _ p sh' hr (fun _ _ _ _ hd w => Copies.mseEvaluate_copies hd hr lambda w)
    (fun _ _ _ _ hd w => Copies.mseGradient_copies hd hr lambda w) h hb hp hp' w,
   Copies.sgd_copies _ _ _ _ p sh' hr (fun _ _ _ _ hd w => Copies.logEvaluate_copies hd hr lambda w)
    (fun _ _ _ _ hd w => Copies.logGradient_copies hd hr lambda w) h hb hp hp' w⟩

/-- Two samples in one batch, and each of them twice in another order. -/
example : sgd ⟨mseEvaluate (1 : ℚ), mseGradient 1⟩ clipGrad vanillaUpdate
      { maxIter := 50, batchSize := 2, noChange := 2, tol := 1 / 100, decay := fun _ => .ok (1 / 2), shuffle := none }
      ⟨1, [[1], [-1]]⟩ [2, -2] [0] = .ok [85 / 64] ∧
    sgd ⟨mseEvaluate (2 : ℚ), mseGradient 2⟩ clipGrad vanillaUpdate
      { maxIter := 50, batchSize := 4, noChange := 2, tol := 1 / 200, decay := fun _ => .ok (1 / 2), shuffle := none }
      ⟨1, [[1], [1], [-1], [-1]]⟩ [2, 2, -2, -2] [0] = .ok [85 / 64] := by decide +kernel

end losses

section bayes
open NB

/-- C162. Naive Bayes after the first fit: label counts are multiplied by `r`; means and variances of the Gaussian model and the
prior probabilities stay, the counts of the multinomial model are multiplied by `r`. Either fit fails exactly if the other
does. -/
theorem C162_bayes {α : Type} [Field α] [LinearOrder α] [IsStrictOrderedRing α] (r : Nat) (hr : 0 < r) (X X' : DMat α)
    (y y' : List α) (h : Copied r X y X' y') (hn : y ≠ []) (smoothing : α) (checked : Bool) :
    fitGaussian smoothing [] X' y' = (do
      let q ← fitGaussian smoothing [] X y
      .ok (q.1.map fun e => (e.1, r * e.2), q.2)) ∧
    fitMultinomial checked [] X' y' = (do
      let q ← fitMultinomial checked [] X y
      .ok (q.1.map fun e => (e.1, r * e.2),
        ⟨q.2.numFeatures, q.2.feature.map fun l => l.map fun c => r * c, q.2.total.map fun c => r * c⟩)) ∧
    ∀ m : List (α × Nat), priorsOf (m.map fun e => (e.1, r * e.2)) X'.nrows = priorsOf m X.nrows := by
  have hr' : (r : α) ≠ 0 := by exact_mod_cast hr.ne'
  have h0 : 0 < X.nrows := by rw [← h.len]; exact List.length_pos_of_ne_nil hn
  have h0' : 0 < X'.nrows := by rw [Copies.nrows h]; exact Nat.mul_pos hr h0
  have hcount := Copies.countLabels_copies hr (Copies.targets h)
  refine ⟨?_, ?_, fun m => ?_⟩
  · by_cases hd : X.ncols < 2
    · have a1 := (C72_few_features checked smoothing [] X h.wf y h.len h0 hd).1
      have b1 := (C72_few_features checked smoothing [] X' h.wf' y' h.len' h0' (by rw [h.cols]; exact hd)).1
      simp only [labelMapAfter, List.foldl_nil] at a1 b1
      rw [a1, b1]
      rfl
    · have hk : ∀ b, b ∈ classesOf (countLabels [] y) ↔ b ∈ y := fun b => by
        rw [(holds_countLabels ([] : List (α × Nat)) [] y holds_nil).keys]; simp
      have hu := updateMeanVariance_spec X h.wf y h.len (by omega) (classesOf (countLabels [] y)) fun b hb => (hk b).mp hb
      have hu' := updateMeanVariance_spec X' h.wf' y' h.len' (by rw [h.cols]; omega) (classesOf (countLabels [] y)) fun b hb =>
        (KMeans.mem_copies r hr _ _ (Copies.targets h) b).mpr ((hk b).mp hb)
      simp only [h.cols, Copies.average_copies hr _ _ (Copies.featureOf_copies h _ _),
        Copies.deviation_copies hr _ _ (Copies.featureOf_copies h _ _)] at hu'
      simp only [fitGaussian, hcount, Copies.classes_copies, hu, hu', Res.bind_ok]
      cases maxEntry ((classesOf (countLabels [] y)).map fun b => (List.range X.ncols).map fun f =>
        meanSquaredDeviation (featureOf (classRows X.rows y b) f)) <;> rfl
  · by_cases hd : X.ncols < 2
    · have a1 := (C72_few_features checked smoothing [] X h.wf y h.len h0 hd).2
      have b1 := (C72_few_features checked smoothing [] X' h.wf' y' h.len' h0' (by rw [h.cols]; exact hd)).2
      simp only [labelMapAfter, List.foldl_nil] at a1 b1
      rw [a1, b1]
      rfl
    · cases checked with
      | true =>
        have a1 := C72_multinomial_checked [] X h.wf y h.len h0
        have b1 := C72_multinomial_checked [] X' h.wf' y' h.len' h0'
        simp only [labelMapAfter, List.foldl_nil] at a1 b1
        rw [a1, b1]
        rfl
      | false =>
        have hg := groups_spec X h.wf y h.len (by omega)
        have hg' := groups_spec X' h.wf' y' h.len' (by rw [h.cols]; omega)
        have hs : ∀ b f, (featureOf (classRows X'.rows y' b) f).sum = r * (featureOf (classRows X.rows y b) f).sum := by
          intro b f
          have := Copies.sum_copies r _ _ (Copies.featureOf_copies h b f) id
          rwa [List.map_id, List.map_id] at this
        have e1 : ∀ labels : List α, mapRes (countGroup false) (labels.map fun b => (⟨X.ncols, classRows X.rows y b⟩ : DMat α)) =
            .ok (labels.map fun b => ((List.range X.ncols).map (fun f => (featureOf (classRows X.rows y b) f).sum),
              ((List.range X.ncols).map fun f => (featureOf (classRows X.rows y b) f).sum).sum)) := by
          intro labels
          rw [mapRes_map]
          exact Analytic.mapRes_eq_map _ _ _ fun b _ => countGroup_spec _ _ (classRows_width X h.wf y b)
        have e2 : ∀ labels : List α, mapRes (countGroup false) (labels.map fun b => (⟨X.ncols, classRows X'.rows y' b⟩ : DMat α)) =
            .ok (labels.map fun b => ((List.range X.ncols).map (fun f => r * (featureOf (classRows X.rows y b) f).sum),
              ((List.range X.ncols).map fun f => r * (featureOf (classRows X.rows y b) f).sum).sum)) := by
          intro labels
          rw [mapRes_map]
          refine Analytic.mapRes_eq_map _ _ _ fun b _ => ?_
          have := classRows_width X' h.wf' y' b
          rw [h.cols] at this
          refine (countGroup_spec _ _ this).trans ?_
          simp only [hs]
        simp only [fitMultinomial, hcount, Copies.classes_copies, hg, hg', Res.bind_ok, h.cols, e1, e2, List.map_map]
        congr 3
        · exact List.map_congr_left fun b _ => by simp [Function.comp_def]
        · exact List.map_congr_left fun b _ => by simp [Function.comp_def, List.sum_map_mul_left]
  · unfold priorsOf
    rw [Copies.nrows h, List.map_map]
    refine List.map_congr_left fun e _ => ?_
    simp only [Function.comp]
    push_cast
    exact mul_div_mul_left _ _ hr'

/-- Beside `C162_bayes`: three samples of two classes, and the same twice. -/
example : fitMultinomial false [] (⟨2, [[1, 2], [0, 3], [4, 0]]⟩ : DMat ℚ) [7, 5, 7] =
      .ok ([(5, 1), (7, 2)], ⟨2, [[0, 3], [5, 2]], [3, 7]⟩) ∧
    fitMultinomial false [] (⟨2, [[1, 2], [0, 3], [4, 0], [0, 3], [1, 2], [4, 0]]⟩ : DMat ℚ) [7, 5, 7, 5, 7, 7] =
      .ok ([(5, 2), (7, 4)], ⟨2, [[0, 6], [10, 4]], [6, 14]⟩) := by decide +kernel

/-- C162. Hence the multinomial model with `r`-fold smoothing `alpha` answers the same joint log likelihoods, for all
samples. -/
theorem C162_multinomial (r : Nat) (hr : 0 < r) (alpha : ℝ) (priors : List ℝ) (k : Counts ℝ) (Z : DMat ℝ) :
    multinomialJLL (r * alpha) priors
      ⟨k.numFeatures, k.feature.map fun l => l.map fun c => r * c, k.total.map fun c => r * c⟩ Z =
      multinomialJLL alpha priors k Z := by
  have hr' : (r : ℝ) ≠ 0 := by exact_mod_cast hr.ne'
  have hll : ∀ (c : List ℝ) (t : ℝ) (x : List ℝ), multinomialLL (r * alpha) k.numFeatures (c.map fun a => r * a) (r * t) x =
      multinomialLL alpha k.numFeatures c t x := by
    intro c t x
    unfold multinomialLL
    congr 2
    funext e
    unfold readAt
    rw [List.getElem?_map]
    cases c[e.2]? with
    | none => rfl
    | some a =>
      simp only [Option.map_some, Res.bind_ok]
      rw [← mul_add, mul_assoc (r : ℝ) alpha, ← mul_add, mul_div_mul_left _ _ hr']
  unfold multinomialJLL
  congr 2
  funext x
  have : ∀ (ps : List ℝ) (F : List (List ℝ)) (T : List ℝ),
      mapRes (fun (e : ℝ × List ℝ × ℝ) => do
        let ll ← multinomialLL (r * alpha) k.numFeatures e.2.1 e.2.2 x
        .ok (ll + Real.log e.1)) (ps.zip ((F.map fun l => l.map fun c => r * c).zip (T.map fun c => r * c))) =
      mapRes (fun (e : ℝ × List ℝ × ℝ) => do
        let ll ← multinomialLL alpha k.numFeatures e.2.1 e.2.2 x
        .ok (ll + Real.log e.1)) (ps.zip (F.zip T)) := by
    intro ps
    induction ps with
    | nil => intros; rfl
    | cons p ps ih =>
      intro F T
      cases F with
      | nil => rfl
      | cons f F =>
        cases T with
        | nil => rfl
        | cons t T =>
          simp only [List.map_cons, List.zip_cons_cons, mapRes, hll, ih]
  exact this _ _ _

/-- With smoothing 2 and doubled counts the likelihood of a sample is that with smoothing 1. -/
example : ((2 : ℚ) * 3 + 2 * 1) / (2 * 7 + 2 * 1 * 2) = (3 + 1) / (7 + 1 * 2) := by norm_num

end bayes

end OpenML
