import Verif.Lemmas.NaiveBayes
import Mathlib.Analysis.SpecialFunctions.Pow.Real

/-!
# C42-C44, C71, C72: naive Bayes
-/

set_option linter.unusedSectionVars false

namespace OpenML
open Spec NB

section counting

variable {α : Type} [Field α] [LinearOrder α] [IsStrictOrderedRing α]

/-- C42: after any sequence of fits the classes are the distinct labels of all fits in increasing order. -/
theorem C42_classes (fits : List (List α)) :
    (classesOf (labelMapAfter fits)).Pairwise (· < ·) ∧ ∀ k, k ∈ classesOf (labelMapAfter fits) ↔ ∃ y ∈ fits, k ∈ y := by
  have h := holds_after fits
  refine ⟨h.sorted, fun k => ?_⟩
  rw [h.keys, List.mem_flatten]

example : classesOf (labelMapAfter [[2, 1, 2], [5, 1]] : List (ℚ × Nat)) = [1, 2, 5] := by decide +kernel

/-- C42: the priors are the numbers of occurrences in all fits divided by the number of samples of the last fit; they sum to
one exactly when the earlier fits had no samples. -/
theorem C42_priors (earlier : List (List α)) (y : List α) (hy : y ≠ []) :
    List.Forall₂ (fun k p => p = (((earlier ++ [y]).flatten.count k : Nat) : α) / (y.length : α))
      (classesOf (labelMapAfter (earlier ++ [y]))) (priorsOf (labelMapAfter (earlier ++ [y])) y.length) ∧
    (priorsOf (labelMapAfter (earlier ++ [y])) y.length).sum = 1 + (earlier.flatten.length : α) / (y.length : α) ∧
    ((priorsOf (labelMapAfter (earlier ++ [y])) y.length).sum = 1 ↔ earlier.flatten = []) := by
  obtain ⟨h1, h2⟩ := priors_spec _ _ (holds_after (earlier ++ [y])) y.length
  have hl : (y.length : α) ≠ 0 := Nat.cast_ne_zero.mpr (by simpa using hy)
  have h3 : (priorsOf (labelMapAfter (earlier ++ [y])) y.length).sum = 1 + (earlier.flatten.length : α) / (y.length : α) := by
    rw [h2, List.flatten_append, List.length_append]
    simp only [List.flatten_cons, List.flatten_nil, List.append_nil, Nat.cast_add]
    field_simp
    ring
  refine ⟨h1, h3, ?_⟩
  rw [h3, add_eq_left, div_eq_zero_iff, or_iff_left hl, Nat.cast_eq_zero, List.length_eq_zero_iff]

example : priorsOf (labelMapAfter ([[2, 1, 2, 2]] : List (List ℚ))) 4 = [1 / 4, 3 / 4] := by decide +kernel

/-- C42: repeating a fit `m` times on the same labels multiplies the priors of the first fit by `m`. -/
theorem C42_refit (m : Nat) (y : List α) (hy : y ≠ []) :
    priorsOf (labelMapAfter (List.replicate (m + 1) y)) y.length =
      (priorsOf (labelMapAfter [y]) y.length).map (fun p => ((m : α) + 1) * p) := by
  have h1 := holds_after (List.replicate (m + 1) y)
  have h2 := holds_after [y]
  have hc : classesOf (labelMapAfter (List.replicate (m + 1) y)) = classesOf (labelMapAfter [y]) := by
    refine h1.sorted.eq_of_mem_iff h2.sorted fun k => ?_
    rw [h1.keys, h2.keys]
    simp
  have p1 := (priors_spec _ _ h1 y.length).1
  have p2 := (priors_spec _ _ h2 y.length).1
  rw [hc] at p1
  have hcount : ∀ k, (List.replicate (m + 1) y).flatten.count k = (m + 1) * y.count k := by
    intro k
    rw [List.count_flatten, List.map_replicate, List.sum_replicate, smul_eq_mul]
  apply List.ext_getElem
  · rw [List.length_map, ← p1.length_eq, ← p2.length_eq]
  · intro i hi1 hi2
    rw [List.length_map] at hi2
    have e1 := p1.get (i := i) (by rw [p1.length_eq]; exact hi1) hi1
    have e2 := p2.get (i := i) (by rw [p2.length_eq]; exact hi2) hi2
    simp only [List.get_eq_getElem] at e1 e2
    rw [List.getElem_map, e1, e2, hcount]
    simp only [List.flatten_cons, List.flatten_nil, List.append_nil, Nat.cast_mul, Nat.cast_add, Nat.cast_one]
    ring

example : priorsOf (labelMapAfter ([[2, 1, 2, 2], [2, 1, 2, 2], [2, 1, 2, 2]] : List (List ℚ))) 4 = [3 / 4, 9 / 4] := by
  decide +kernel

/-- C44: the multinomial fit (assertions disabled, at least two features, first fit) stores for every class the column sums
of its rows and their total. -/
theorem C44_counts (X : DMat α) (hx : X.WF) (y : List α) (hy : y.length = X.nrows) (hd : 2 ≤ X.ncols) :
    ∃ m k, fitMultinomial false [] X y = .ok (m, k) ∧ k.numFeatures = X.ncols ∧
      k.feature = (classesOf m).map (fun b => (List.range X.ncols).map fun f => (featureOf (classRows X.rows y b) f).sum) ∧
      k.total = k.feature.map List.sum ∧
      (classesOf m).Pairwise (· < ·) ∧ ∀ b, b ∈ classesOf m ↔ b ∈ y := by
  have h := holds_countLabels ([] : List (α × Nat)) [] y holds_nil
  have hm : mapRes (countGroup false)
      ((classesOf (countLabels [] y)).map fun b => (⟨X.ncols, classRows X.rows y b⟩ : DMat α)) =
      .ok ((classesOf (countLabels [] y)).map fun b =>
        ((List.range X.ncols).map (fun f => (featureOf (classRows X.rows y b) f).sum),
          ((List.range X.ncols).map fun f => (featureOf (classRows X.rows y b) f).sum).sum)) := by
    rw [mapRes_map]
    exact Analytic.mapRes_eq_map _ _ _ fun b _ => countGroup_spec _ _ (classRows_width X hx y b)
  let col : α → List α := fun b => (List.range X.ncols).map fun f => (featureOf (classRows X.rows y b) f).sum
  refine ⟨countLabels [] y, ⟨X.ncols, (classesOf (countLabels [] y)).map col,
    (classesOf (countLabels [] y)).map fun b => (col b).sum⟩, ?_, rfl, rfl, ?_, h.sorted, fun b => ?_⟩
  · simp only [fitMultinomial, groups_spec X hx y hy hd, Res.bind_ok, hm, List.map_map]
    rfl
  · simp [List.map_map, Function.comp_def]
  · rw [h.keys]; simp

example : fitMultinomial false [] (⟨2, [[1, 2], [0, 3], [4, 0]]⟩ : DMat ℚ) [7, 5, 7] =
    .ok ([(5, 1), (7, 2)], ⟨2, [[0, 3], [5, 2]], [3, 7]⟩) := by decide +kernel

/-- C72: with fewer than two features and at least one sample both fits read past the end of a row. -/
theorem C72_few_features (checked : Bool) (smoothing : α) (fits : List (List α)) (X : DMat α)
    (hx : X.WF) (y : List α) (hy : y.length = X.nrows) (hn : 0 < X.nrows) (hd : X.ncols < 2) :
    fitGaussian smoothing (labelMapAfter fits) X y = .ub ∧ fitMultinomial checked (labelMapAfter fits) X y = .ub := by
  have h' := holds_countLabels _ _ y (holds_after fits)
  have hg := groups_ub X hx y hy hn hd (classesOf (countLabels (labelMapAfter fits) y)) fun b hb => by rw [h'.keys]; simp [hb]
  constructor
  · simp [fitGaussian, updateMeanVariance, hg]
  · simp [fitMultinomial, hg]

example : fitGaussian 0 [] (⟨1, [[1], [2]]⟩ : DMat ℚ) [0, 1] = .ub := by decide +kernel

/-- C72: with assertions enabled the multinomial fit fails for every non-empty data set, whatever the number of features. -/
theorem C72_multinomial_checked (fits : List (List α)) (X : DMat α) (hx : X.WF) (y : List α)
    (hy : y.length = X.nrows) (hn : 0 < X.nrows) : fitMultinomial true (labelMapAfter fits) X y = .ub := by
  by_cases hd : X.ncols < 2
  · exact (C72_few_features true 0 fits X hx y hy hn hd).2
  · have h' := holds_countLabels _ _ y (holds_after fits)
    rw [fitMultinomial]
    simp only [groups_spec X hx y hy (by omega), Res.bind_ok]
    have hne : classesOf (countLabels (labelMapAfter fits) y) ≠ [] := by
      obtain ⟨b, hb⟩ := List.exists_mem_of_length_pos (l := y) (by omega)
      exact List.ne_nil_of_mem ((h'.keys b).mpr (by simp [hb]))
    match hc : classesOf (countLabels (labelMapAfter fits) y), hne with
    | b :: bs, _ =>
      simp only [List.map_cons, mapRes]
      rw [countGroup_checked _ (by show X.ncols ≠ 1; omega)]
      rfl

example : fitMultinomial true [] (⟨2, [[1, 2], [0, 3]]⟩ : DMat ℚ) [0, 1] = .ub := by decide +kernel

/-- C71: the Gaussian fit (at least two features and one sample, first fit) stores for every class the mean of each feature,
and its mean squared deviation plus `smoothing` times the largest mean squared deviation of any class and feature. -/
theorem C71_fit (smoothing : α) (X : DMat α) (hx : X.WF) (y : List α) (hy : y.length = X.nrows) (hn : 0 < X.nrows)
    (hd : 2 ≤ X.ncols) :
    ∃ m g top, fitGaussian smoothing [] X y = .ok (m, g) ∧
      (classesOf m).Pairwise (· < ·) ∧ (∀ b, b ∈ classesOf m ↔ b ∈ y) ∧
      g.mean = (classesOf m).map (fun b => (List.range X.ncols).map fun f => average (featureOf (classRows X.rows y b) f)) ∧
      g.var = (classesOf m).map (fun b => (List.range X.ncols).map fun f =>
        meanSquaredDeviation (featureOf (classRows X.rows y b) f) + smoothing * top) ∧
      (∃ b ∈ y, ∃ f < X.ncols, top = meanSquaredDeviation (featureOf (classRows X.rows y b) f)) ∧
      (∀ b ∈ y, ∀ f < X.ncols, meanSquaredDeviation (featureOf (classRows X.rows y b) f) ≤ top) := by
  have h := holds_countLabels ([] : List (α × Nat)) [] y holds_nil
  have hk : ∀ b, b ∈ classesOf (countLabels [] y) ↔ b ∈ y := fun b => by rw [h.keys]; simp
  have hu := updateMeanVariance_spec X hx y hy hd (classesOf (countLabels [] y)) fun b hb => (hk b).mp hb
  have hmem : ∀ a, a ∈ ((classesOf (countLabels [] y)).map fun b => (List.range X.ncols).map fun f =>
      meanSquaredDeviation (featureOf (classRows X.rows y b) f)).flatten ↔
      ∃ b ∈ y, ∃ f < X.ncols, meanSquaredDeviation (featureOf (classRows X.rows y b) f) = a := by
    intro a
    simp only [List.mem_flatten, List.mem_map, List.mem_range]
    constructor
    · rintro ⟨_, ⟨b, hb, rfl⟩, ha⟩
      obtain ⟨f, hf, rfl⟩ := List.mem_map.mp ha
      exact ⟨b, (hk b).mp hb, f, List.mem_range.mp hf, rfl⟩
    · rintro ⟨b, hb, f, hf, rfl⟩
      exact ⟨_, ⟨b, (hk b).mpr hb, rfl⟩, List.mem_map.mpr ⟨f, List.mem_range.mpr hf, rfl⟩⟩
  have hne : ((classesOf (countLabels [] y)).map fun b => (List.range X.ncols).map fun f =>
      meanSquaredDeviation (featureOf (classRows X.rows y b) f)).flatten ≠ [] := by
    obtain ⟨b, hb⟩ := List.exists_mem_of_length_pos (l := y) (by omega)
    exact List.ne_nil_of_mem ((hmem _).mpr ⟨b, hb, 0, by omega, rfl⟩)
  obtain ⟨top, ht, htm, hle⟩ := maxEntry_spec _ hne
  obtain ⟨b, hb, f, hf, he⟩ := (hmem top).mp htm
  refine ⟨countLabels [] y, ⟨_, (classesOf (countLabels [] y)).map fun b => (List.range X.ncols).map fun f =>
        meanSquaredDeviation (featureOf (classRows X.rows y b) f) + smoothing * top⟩, top, ?_, h.sorted, hk, rfl, rfl,
    ⟨b, hb, f, hf, he.symm⟩, ?_⟩
  · simp only [fitGaussian, hu, Res.bind_ok, ht, List.map_map, Function.comp_def]
  · intro b hb f hf
    exact hle _ ((hmem _).mpr ⟨b, hb, f, hf, rfl⟩)

example : fitGaussian (1 / 4) [] (⟨2, [[1, 2], [0, 3], [5, 2]]⟩ : DMat ℚ) [7, 5, 7] =
    .ok ([(5, 1), (7, 2)], ⟨[[0, 3], [3, 2]], [[1, 1], [5, 1]]⟩) := by decide +kernel

end counting

section scores

/-- C43: `predict_prob` normalises: every row becomes its softmax, its entries are positive and sum to one. -/
theorem C43_predict_prob (jll : DMat ℝ) (hx : jll.WF) (hc : 0 < jll.ncols) :
    ∃ P, predictProb jll.ncols jll = .ok P ∧ P.rows = jll.rows.map softmaxOf ∧
      ∀ r ∈ P.rows, r.length = jll.ncols ∧ (∀ p ∈ r, 0 < p) ∧ r.sum = 1 := by
  refine ⟨_, predictProb_spec jll hx hc, rfl, ?_⟩
  intro r hr
  obtain ⟨l, hl, rfl⟩ := List.mem_map.mp hr
  have hne := Analytic.rows_ne_nil hx hc l hl
  exact ⟨by simp [softmaxOf, hx l hl], fun p hp => Analytic.softmaxOf_pos l p hp, Analytic.softmaxOf_sum l hne⟩

example : (⟨2, [[0, 0], [1, -3]]⟩ : DMat ℝ).WF := by intro r hr; simp at hr; rcases hr with rfl | rfl <;> rfl

/-- C43: `predict` returns for each row the first position of its largest joint log likelihood, which is also the first
position of its largest probability. -/
theorem C43_predict (jll : DMat ℝ) (hx : jll.WF) (hc : 0 < jll.ncols) :
    ∃ (P : DMat ℝ) (ps : List Nat), predictProb jll.ncols jll = .ok P ∧ predict jll = .ok (ps.map fun (i : Nat) => (i : ℝ)) ∧
      List.Forall₂ IsFirstMax jll.rows ps ∧ List.Forall₂ IsFirstMax P.rows ps ∧ ∀ i ∈ ps, i < jll.ncols := by
  obtain ⟨ps, h1, h2⟩ := predict_spec jll hx hc
  refine ⟨_, ps, predictProb_spec jll hx hc, h1, h2, ?_, ?_⟩
  · rw [List.forall₂_map_left_iff]
    exact h2.imp fun l p h => (firstMax_softmax l p).mpr h
  · intro i hi
    obtain ⟨k, hk, rfl⟩ := List.mem_iff_getElem.mp hi
    have hk' : k < jll.rows.length := by rw [h2.length_eq]; exact hk
    obtain ⟨v, hv, -⟩ := h2.get hk' hk
    have := (List.getElem?_eq_some_iff.mp hv).1
    simp only [List.get_eq_getElem] at this
    rwa [hx _ (List.getElem_mem hk')] at this

example : predict ⟨2, [[0, 0], [-3, 1]]⟩ = .ok [0, 1] := by
  have hx : (⟨2, [[0, 0], [-3, 1]]⟩ : DMat ℝ).WF := by intro r hr; simp at hr; rcases hr with rfl | rfl <;> rfl
  simp [predict, MatOps.argmax, mapRes, maxCoeffIdx, visitFrom]
  norm_num

/-- C44: the smoothed feature probabilities of a class, `(count + alpha) / (total + alpha * features)`, are positive and sum
to one. -/
theorem C44_smoothed (alpha : ℝ) (ha : 0 < alpha) (counts : List ℝ) (hc : ∀ c ∈ counts, 0 ≤ c) (hne : counts ≠ []) :
    let p := counts.map fun c => (c + alpha) / (counts.sum + alpha * (counts.length : ℝ))
    (∀ a ∈ p, 0 < a) ∧ p.sum = 1 ∧
    ∀ x : List ℝ, x.length = counts.length → multinomialLL alpha counts.length counts counts.sum x =
      .ok (Real.log (List.zipWith (fun q a => q ^ a) p x).prod) := by
  have hden : 0 < counts.sum + alpha * (counts.length : ℝ) := by
    have h1 : 0 ≤ counts.sum := List.sum_nonneg hc
    have h2 : (0 : ℝ) < counts.length := by
      have := List.length_pos_iff.mpr hne
      exact_mod_cast this
    positivity
  have hpos : ∀ c ∈ counts, 0 < (c + alpha) / (counts.sum + alpha * (counts.length : ℝ)) := fun c h =>
    div_pos (by linarith [hc c h]) hden
  refine ⟨?_, ?_, ?_⟩
  · intro a h
    obtain ⟨c, hc', rfl⟩ := List.mem_map.mp h
    exact hpos c hc'
  · have : ∀ (l : List ℝ) (t : ℝ), (l.map fun c => (c + alpha) / t).sum = (l.sum + alpha * (l.length : ℝ)) / t := by
      intro l t
      induction l with
      | nil => simp
      | cons c l ih =>
        simp only [List.map_cons, List.sum_cons, ih, List.length_cons, Nat.cast_add, Nat.cast_one]
        ring
    rw [this, div_self hden.ne']
  · intro x hx
    rw [multinomialLL_eq _ _ _ _ _ hx]
    congr 1
    generalize counts.sum + alpha * (counts.length : ℝ) = t at hpos ⊢
    clear hden hc hne
    induction counts generalizing x with
    | nil => simp
    | cons c cs ih =>
      match x, hx with
      | a :: x, hx =>
        have hp := hpos c (by simp)
        have hrest : ∀ (cs x : List ℝ), (∀ c ∈ cs, 0 < (c + alpha) / t) →
            0 < (List.zipWith (fun q a => q ^ a) (cs.map fun c => (c + alpha) / t) x).prod := by
          intro cs x h
          refine List.prod_pos fun b hb => ?_
          obtain ⟨i, hi, rfl⟩ := List.mem_iff_getElem.mp hb
          rw [List.getElem_zipWith, List.getElem_map]
          exact Real.rpow_pos_of_pos (h _ (List.getElem_mem _)) _
        have hi := ih x (by simpa using hx) fun q hq => hpos q (by simp [hq])
        simp only [List.map_cons, List.zipWith_cons_cons, List.sum_cons, List.prod_cons]
        rw [Real.log_mul (Real.rpow_pos_of_pos hp a).ne' (hrest cs x fun q hq => hpos q (by simp [hq])).ne',
          Real.log_rpow hp, ← hi]

example : ([3, 0, 1] : List ℝ).map (fun c => (c + 1) / (([3, 0, 1] : List ℝ).sum + 1 * ((3 : Nat) : ℝ))) =
    [4 / 7, 1 / 7, 2 / 7] := by norm_num

/-- C44: the joint log likelihood of a class is the logarithm of its own prior times the product of its smoothed feature
probabilities raised to the counts of the row. -/
theorem C44_joint (alpha : ℝ) (ha : 0 < alpha) (priors : List ℝ) (hp : ∀ p ∈ priors, 0 < p) (feature : List (List ℝ))
    (X : DMat ℝ) (hx : X.WF) (hd : 0 < X.ncols) (hf : ∀ c ∈ feature, c.length = X.ncols ∧ ∀ a ∈ c, 0 ≤ a) :
    multinomialJLL alpha priors ⟨X.ncols, feature, feature.map List.sum⟩ X = .ok ⟨priors.length, X.rows.map fun x =>
      List.zipWith (fun p c => Real.log (p * (List.zipWith (fun q a => q ^ a)
        (c.map fun n => (n + alpha) / (c.sum + alpha * (X.ncols : ℝ))) x).prod)) priors feature⟩ := by
  have hrow : ∀ x ∈ X.rows, mapRes (fun (e : ℝ × List ℝ × ℝ) => do
      let ll ← multinomialLL alpha X.ncols e.2.1 e.2.2 x
      .ok (ll + Real.log e.1)) (priors.zip (feature.zip (feature.map List.sum))) =
      .ok (List.zipWith (fun p c => Real.log (p * (List.zipWith (fun q a => q ^ a)
        (c.map fun n => (n + alpha) / (c.sum + alpha * (X.ncols : ℝ))) x).prod)) priors feature) := by
    intro x hxm
    have hxl := hx x hxm
    induction feature generalizing priors with
    | nil => simp [mapRes]
    | cons c cs ih =>
      match priors with
      | [] => simp [mapRes]
      | p :: ps =>
        have hc := hf c (by simp)
        have hi := ih ps (fun q hq => hp q (by simp [hq])) fun q hq => hf q (by simp [hq])
        have hne : c ≠ [] := by rintro rfl; simp at hc; omega
        obtain ⟨h1, -, h3⟩ := C44_smoothed alpha ha c hc.2 hne
        have hll := h3 x (by rw [hxl, hc.1])
        rw [hc.1] at h1 hll
        have hpos : 0 < (List.zipWith (fun q a => q ^ a)
            (c.map fun n => (n + alpha) / (c.sum + alpha * (X.ncols : ℝ))) x).prod := by
          refine List.prod_pos fun b hb => ?_
          obtain ⟨i, hi, rfl⟩ := List.mem_iff_getElem.mp hb
          rw [List.getElem_zipWith]
          exact Real.rpow_pos_of_pos (h1 _ (List.getElem_mem _)) _
        simp only [List.map_cons, List.zip_cons_cons, mapRes, hll, Res.bind_ok, hi, List.zipWith_cons_cons]
        rw [Real.log_mul (hp p (by simp)).ne' hpos.ne', add_comm]
  rw [multinomialJLL]
  simp only
  rw [Analytic.mapRes_eq_map _ _ _ hrow]
  rfl

example : ∀ c ∈ ([[3, 0, 1], [0, 2, 2]] : List (List ℝ)), c.length = 3 ∧ ∀ a ∈ c, 0 ≤ a := by
  intro c hc
  simp at hc
  rcases hc with rfl | rfl <;> simp

/-- C71: without assertions the joint log likelihood of every class is the logarithm of its normal density plus the log
prior of the first class. -/
theorem C71_joint (p0 : ℝ) (ps : List ℝ) (g : Gaussian ℝ) (X : DMat ℝ)
    (hm : ∀ r ∈ g.mean, r.length = X.ncols) (hv : ∀ r ∈ g.var, r.length = X.ncols ∧ ∀ v ∈ r, 0 < v) (hx : X.WF) :
    gaussianJLL false (p0 :: ps) g X = .ok ⟨(p0 :: ps).length, X.rows.map fun x =>
      (g.mean.zip g.var).map fun mv => Real.log (independentPdf mv.1 mv.2 x) + Real.log p0⟩ := by
  rw [gaussianJLL]
  have : mapRes (fun x => mapRes (fun (mv : List ℝ × List ℝ) => do
      let ll ← gaussianLL mv.1 mv.2 x
      if false = true ∧ (p0 :: ps).length ≠ 1 then .ub
      else do
        let p ← readAt (p0 :: ps) 0
        .ok (ll + Real.log p)) (g.mean.zip g.var)) X.rows = .ok (X.rows.map fun x =>
      (g.mean.zip g.var).map fun mv => Real.log (independentPdf mv.1 mv.2 x) + Real.log p0) := by
    refine Analytic.mapRes_eq_map _ _ _ fun x hxm => Analytic.mapRes_eq_map _ _ _ fun mv hmv => ?_
    have h1 := (List.of_mem_zip (a := mv.1) (b := mv.2) hmv).1
    have h2 := hv _ (List.of_mem_zip (a := mv.1) (b := mv.2) hmv).2
    rw [gaussianLL_eq _ _ _ (by rw [hx x hxm, hm _ h1]) (by rw [hx x hxm, h2.1]) h2.2]
    simp [readAt]
  rw [this]
  rfl

/-- C71: so `predict` without assertions ignores the priors: it returns the first class whose normal density at the row is
largest. -/
theorem C71_predict_ignores_priors (p0 : ℝ) (ps : List ℝ) (g : Gaussian ℝ) (X : DMat ℝ)
    (hm : ∀ r ∈ g.mean, r.length = X.ncols) (hv : ∀ r ∈ g.var, r.length = X.ncols ∧ ∀ v ∈ r, 0 < v) (hx : X.WF)
    (hl : g.mean.length = g.var.length) (hp : (p0 :: ps).length = g.mean.length) :
    ∃ (jll : DMat ℝ) (cs : List Nat), gaussianJLL false (p0 :: ps) g X = .ok jll ∧
      predict jll = .ok (cs.map fun (i : Nat) => (i : ℝ)) ∧
      List.Forall₂ (fun x c => IsFirstMax ((g.mean.zip g.var).map fun mv => independentPdf mv.1 mv.2 x) c) X.rows cs := by
  have hj := C71_joint p0 ps g X hm hv hx
  set jll : DMat ℝ := ⟨(p0 :: ps).length, X.rows.map fun x =>
      (g.mean.zip g.var).map fun mv => Real.log (independentPdf mv.1 mv.2 x) + Real.log p0⟩ with hjd
  have hwf : jll.WF := by
    intro r hr
    obtain ⟨x, -, rfl⟩ := List.mem_map.mp hr
    simp only [List.length_map, List.length_zip, hjd]
    omega
  obtain ⟨cs, h1, h2⟩ := predict_spec jll hwf (by simp [hjd])
  refine ⟨jll, cs, hj, h1, ?_⟩
  rw [hjd] at h2
  simp only [List.forall₂_map_left_iff] at h2
  refine h2.imp fun x c h => ?_
  have hpos : ∀ mv ∈ g.mean.zip g.var, 0 < independentPdf mv.1 mv.2 x := fun mv hmv =>
    independentPdf_pos _ _ _ (hv _ (List.of_mem_zip (a := mv.1) (b := mv.2) hmv).2).2
  obtain ⟨v, hv', hmax⟩ := h
  rw [List.getElem?_map] at hv'
  obtain ⟨a, ha, rfl⟩ := Option.map_eq_some_iff.mp hv'
  refine ⟨independentPdf a.1 a.2 x, by rw [List.getElem?_map, ha]; rfl, fun q w hq => ?_⟩
  rw [List.getElem?_map] at hq
  obtain ⟨b, hb, rfl⟩ := Option.map_eq_some_iff.mp hq
  have h3 := hmax q (Real.log (independentPdf b.1 b.2 x) + Real.log p0) (by rw [List.getElem?_map, hb]; rfl)
  have pa := hpos a (List.mem_of_getElem? ha)
  have pb := hpos b (List.mem_of_getElem? hb)
  refine ⟨?_, fun he => h3.2 (by rw [he])⟩
  have := h3.1
  rw [add_le_add_iff_right] at this
  exact (Real.log_le_log_iff pb pa).mp this

example : ∀ r ∈ (⟨[[0, 0], [1, 1]], [[1, 2], [1, 1]]⟩ : Gaussian ℝ).var, r.length = 2 ∧ ∀ v ∈ r, 0 < v := by
  intro r hr
  simp at hr
  rcases hr with rfl | rfl <;> simp

/-- C71: with assertions enabled prediction fails for every model with at least two classes. -/
theorem C71_checked (priors : List ℝ) (g : Gaussian ℝ) (X : DMat ℝ) (hx : X.WF) (hn : X.rows ≠ []) (hp : 2 ≤ priors.length)
    (hm : ∀ r ∈ g.mean, r.length = X.ncols) (hv : ∀ r ∈ g.var, r.length = X.ncols)
    (h1 : g.mean.length = priors.length) (h2 : g.var.length = priors.length) : gaussianJLL true priors g X = .ub := by
  rw [gaussianJLL]
  match hr : X.rows, hn, hmean : g.mean, hvar : g.var with
  | x :: rows, _, m :: ms, v :: vs =>
    have hxl := hx x (by rw [hr]; simp)
    have hml := hm m (by rw [hmean]; simp)
    have hvl := hv v (by rw [hvar]; simp)
    have : gaussianLL m v x ≠ .ub := by rw [gaussianLL, if_pos ⟨by omega, by omega⟩]; simp
    simp only [gaussianLL, mapRes, List.zip_cons_cons, hxl, hml, hvl, and_self, if_true, Res.bind_ok]
    rw [if_pos ⟨trivial, by omega⟩]
    rfl
  | _, _, [], _ => rw [hmean] at h1; simp at h1; omega
  | _, _, _, [] => rw [hvar] at h2; simp at h2; omega

/-- Two classes, two features and one query. -/
example : gaussianJLL true [1 / 2, 1 / 2] ⟨[[0, 0], [1, 1]], [[1, 2], [1, 1]]⟩ ⟨2, [[3, 4]]⟩ = .ub :=
  C71_checked _ _ _ (by intro r hr; simp at hr; simp [hr]) (by simp) (by simp)
    (by intro r hr; simp at hr; rcases hr with rfl | rfl <;> rfl) (by intro r hr; simp at hr; rcases hr with rfl | rfl <;> rfl) rfl rfl

end scores

end OpenML
