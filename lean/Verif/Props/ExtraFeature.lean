import Verif.Lemmas.ExtraFeatureFits
import Verif.Lemmas.CopiesFits
import Verif.Props.LinearModel

/-!
# C163: features without new information
-/

set_option linter.unusedSectionVars false

namespace OpenML
open Spec

section trees
open DTree ExtraFeature
variable {α : Type} [Field α] [LinearOrder α] [IsStrictOrderedRing α]

namespace ExtraFeature

theorem predictProb_ext {R : Type} [LinearOrder R] (start : R) (imp : List α → List α → List α → Res R) (P : Params R)
    (old : List α) (X : DMat α) (hx : X.WF) (y : List α) (hy : y.length = X.nrows) (M : Model α)
    (h : fit start imp P old X y = .ok M) (q : List α → α) (Z : List (List α)) (hZ : ∀ z ∈ Z, X.ncols ≤ z.length) :
    predictProb M (Z.map fun z => z ++ [q z]) = predictProb M Z ∧ predict M (Z.map fun z => z ++ [q z]) = predict M Z := by
  have hb := ((DTree.fit_eq_ok start imp P old X y hy M).mp h).2
  have hp : predictProb M (Z.map fun z => z ++ [q z]) = predictProb M Z := by
    unfold predictProb
    rw [mapRes_map]
    induction Z with
    | nil => rfl
    | cons z Z ih =>
      simp only [mapRes, Function.comp, route_ext _ P _ X hx y hy 0 M.root hb z [q z] (hZ z List.mem_cons_self)]
      rw [← ih fun x hx => hZ x (List.mem_cons_of_mem _ hx)]
  refine ⟨hp, ?_⟩
  unfold predict
  rw [hp]

theorem fit_ext {R : Type} [LinearOrder R] (start : R) (imp : List α → List α → List α → Res R) (hi : NeverWorse imp)
    (P : Params R) (h3 : 3 ≤ P.minSplit) (old : List α) (X : DMat α) (hx : X.WF) (y : List α) (hy : y.length = X.nrows) (f : Nat)
    (hf : f < X.ncols) (g : List α → α) (hg : RisesWith X.rows f g) :
    fit start imp P old (withFeature g X) y = fit start imp P old X y := by
  simp only [fit, nrows, build_ext (classifier _ start imp) P h3 g f _ X hx y hy hf hg (Or.inl hi)]

end ExtraFeature

/-- C163. Appending a feature that never falls while an existing feature rises - a constant, a copy, another unit, a rounded or
clipped version - does not change a classification tree with criterion `gini`: `fit` gives the same tree, and what samples have
in the new feature does not influence their probabilities and classes. -/
theorem C163_gini (start : α) (P : Params α) (h3 : 3 ≤ P.minSplit) (old : List α) (X : DMat α) (hx : X.WF) (y : List α)
    (hy : y.length = X.nrows) (f : Nat) (hf : f < X.ncols) (g : List α → α) (hg : RisesWith X.rows f g) :
    fit start giniScore P old (withFeature g X) y = fit start giniScore P old X y ∧
    ∀ M, fit start giniScore P old X y = .ok M → ∀ (q : List α → α) (Z : List (List α)), (∀ z ∈ Z, X.ncols ≤ z.length) →
      predictProb M (Z.map fun z => z ++ [q z]) = predictProb M Z ∧ predict M (Z.map fun z => z ++ [q z]) = predict M Z :=
  ⟨fit_ext start _ ⟨Copies.relative_gini.total, Copies.relative_gini.least⟩ P h3 old X hx y hy f hf g hg,
    fun M h q Z hZ => predictProb_ext start _ P old X hx y hy M h q Z hZ⟩

/-- Beside `C163_gini`: heights in metres, and the same rounded down to metres; the tree splits at 3/2 either way. -/
example : RisesWith ([[1], [6 / 5], [9 / 5], [2]] : List (List ℚ)) 0 (fun x => (⌊x.getD 0 0⌋ : ℚ)) ∧
    withFeature (fun x => (⌊x.getD 0 0⌋ : ℚ)) (⟨1, [[1], [6 / 5], [9 / 5], [2]]⟩ : DMat ℚ) =
      ⟨2, [[1, 1], [6 / 5, 1], [9 / 5, 1], [2, 2]]⟩ ∧
    fit (1 / 1000) giniScore ⟨4, 0, 5, 0⟩ [] ⟨2, [[1, 1], [6 / 5, 1], [9 / 5, 1], [2, 2]]⟩ [(0 : ℚ), 0, 1, 1] =
      .ok ⟨[0, 1], .node [2, 2] (some (0, 3 / 2)) (.node [2, 0] none .null .null) (.node [0, 2] none .null .null)⟩ := by
  refine ⟨fun x _ z _ a b ha hb hab => ?_, by decide +kernel, by decide +kernel⟩
  simp only [List.getD_eq_getElem?_getD, ha, hb, Option.getD_some]
  exact_mod_cast Int.floor_le_floor hab

/-- C163. The same for the criterion `entropy`. -/
theorem C163_entropy (start : ℝ) (P : Params ℝ) (h3 : 3 ≤ P.minSplit) (old : List α) (X : DMat α) (hx : X.WF) (y : List α)
    (hy : y.length = X.nrows) (f : Nat) (hf : f < X.ncols) (g : List α → α) (hg : RisesWith X.rows f g) :
    fit start entropyScore P old (withFeature g X) y = fit start entropyScore P old X y ∧
    ∀ M, fit start entropyScore P old X y = .ok M → ∀ (q : List α → α) (Z : List (List α)), (∀ z ∈ Z, X.ncols ≤ z.length) →
      predictProb M (Z.map fun z => z ++ [q z]) = predictProb M Z ∧ predict M (Z.map fun z => z ++ [q z]) = predict M Z :=
  ⟨fit_ext start _ ⟨Copies.relative_entropy.total, Copies.relative_entropy.least⟩ P h3 old X hx y hy f hf g hg,
    fun M h q Z hZ => predictProb_ext start _ P old X hx y hy M h q Z hZ⟩

/-- A constant feature rises with every feature. -/
example : RisesWith ([[1, 5], [2, 4], [3, 7]] : List (List ℚ)) 1 (fun _ => 8) := fun _ _ _ _ _ _ _ _ _ => le_rfl

/-- C163. The position matters: of equally good splits the first feature wins, so a feature without new information put in front
of the others can change the tree and its answers. The samples 0, 2, 2 of the classes 0, 1, 1 are split at 1; with the negated
feature in front, -2 occurs twice and is a threshold itself, so that a sample with 3/2 changes its class. -/
theorem C163_in_front : ∃ (X : DMat ℚ) (y z : List ℚ) (M M' : Model ℚ), X.WF ∧ y.length = X.nrows ∧
    fit (1 / 1000) giniScore ⟨3, 0, 5, 0⟩ [] X y = .ok M ∧
    fit (1 / 1000) giniScore ⟨3, 0, 5, 0⟩ [] ⟨2, X.rows.map fun x => (-x.getD 0 0) :: x⟩ y = .ok M' ∧
    predict M [z] = .ok [1] ∧ predict M' [(-z.getD 0 0) :: z] = .ok [0] :=
  ⟨⟨1, [[0], [2], [2]]⟩, [0, 1, 1], [3 / 2],
    ⟨[0, 1], .node [1, 2] (some (0, 1)) (.node [1, 0] none .null .null) (.node [0, 2] none .null .null)⟩,
    ⟨[0, 1], .node [1, 2] (some (0, -2)) (.node [0, 2] none .null .null) (.node [1, 0] none .null .null)⟩,
    by decide, by decide, by decide +kernel, by decide +kernel, by decide +kernel, by decide +kernel⟩

/-- C163. Appending a feature that rises strictly with an existing one - a copy or another unit - does not change a regression
tree with `squared_error`, nor do its values in new samples; a fit to the one data set is undefined exactly if it is for the
other. -/
theorem C163_regressor (m start : α) (P : Params α) (h3 : 3 ≤ P.minSplit) (X : DMat α) (hx : X.WF) (y : List α)
    (hy : y.length = X.nrows) (f : Nat) (hf : f < X.ncols) (g : List α → α) (hg : StrictlyRisesWith X.rows f g) :
    fitRegressor m start squaredScore P (withFeature g X) y = fitRegressor m start squaredScore P X y ∧
    ∀ T, fitRegressor m start squaredScore P X y = .ok T → ∀ (q : List α → α) (Z : List (List α)),
      (∀ z ∈ Z, X.ncols ≤ z.length) → predictRegressor T (Z.map fun z => z ++ [q z]) = predictRegressor T Z := by
  refine ⟨build_ext (regressor m start squaredScore) P h3 g f _ X hx y hy hf hg.1 (Or.inr hg) 0, fun T h q Z hZ => ?_⟩
  unfold predictRegressor
  rw [mapRes_map]
  induction Z with
  | nil => rfl
  | cons z Z ih =>
    simp only [mapRes, Function.comp, route_ext _ P _ X hx y hy 0 T h z [q z] (hZ z List.mem_cons_self)]
    rw [← ih fun x hx => hZ x (List.mem_cons_of_mem _ hx)]

/-- Beside `C163_regressor`: a second unit (hundredths) of the only feature; and a constant appended to the same data makes the
fit undefined. -/
example : StrictlyRisesWith ([[1], [2], [3], [4]] : List (List ℚ)) 0 (fun x => 100 * x.getD 0 0) ∧
    fitRegressor (1 / 10) (1 / 1000) squaredScore ⟨4, 0, 5, 0⟩ (⟨2, [[1, 100], [2, 200], [3, 300], [4, 400]]⟩ : DMat ℚ) [1, 1, 5, 5] =
      fitRegressor (1 / 10) (1 / 1000) squaredScore ⟨4, 0, 5, 0⟩ (⟨1, [[1], [2], [3], [4]]⟩ : DMat ℚ) [1, 1, 5, 5] ∧
    fitRegressor (1 / 10) (1 / 1000) squaredScore ⟨4, 0, 5, 0⟩ (⟨2, [[1, 7], [2, 7], [3, 7], [4, 7]]⟩ : DMat ℚ) [1, 1, 5, 5] = .ub := by
  refine ⟨⟨fun x _ z _ a b ha hb hab => ?_, fun x _ z _ a b ha hb hab => ?_⟩, by decide +kernel, by decide +kernel⟩
  · simp only [List.getD_eq_getElem?_getD, ha, hb, Option.getD_some]; linarith
  · simp only [List.getD_eq_getElem?_getD, ha, hb, Option.getD_some]; linarith

end trees

section kmeans
open KMeans ExtraFeature

/-- C163. A constant feature appended to the data does not influence k-means: k-means++ selects the same samples, the fitted
centroids are the same with the constant appended, and new samples get the same labels whatever they have in that feature
(assertions disabled). -/
theorem C163_kmeans (c tol : ℝ) (n : Nat) (X : DMat ℝ) (hx : X.WF) :
    (∀ first draws, plusPlus first draws (withFeature (fun _ => c) X) =
      (do let q ← plusPlus first draws X; .ok (q.1.map (· ++ [c]), q.2))) ∧
    ∀ C : List (List ℝ), C ≠ [] → (∀ r ∈ C, r.length = X.ncols) → ∃ C', fitFrom false (epsBelow tol) n X (.ok C) = .ok C' ∧
      fitFrom false (epsBelow tol) n (withFeature (fun _ => c) X) (.ok (C.map (· ++ [c]))) = .ok (C'.map (· ++ [c])) ∧
      ∀ (q : List ℝ → ℝ) (Z : DMat ℝ), Z.WF → Z.ncols = X.ncols →
        predict (C'.map (· ++ [c])) (withFeature q Z) = predict C' Z := by
  refine ⟨fun first draws => plusPlus_ext c X hx first draws, fun C hC hw => ?_⟩
  obtain ⟨C', h1, -, h3, -⟩ := lloyd_spec false (epsBelow tol) n X hx (Or.inl rfl) C hC hw
  refine ⟨C', h1, lloyd_ext c X hx _ (fun ds ds' h => ?_) n C hC hw C' h1, fun q Z hz hc => predict_ext q c C' Z fun k hk z hm => ?_⟩
  · unfold epsBelow
    rw [show (ds'.map fun d => Real.sqrt (sqNorm d)) = (ds'.map sqNorm).map Real.sqrt by rw [List.map_map]; rfl, h, List.map_map]
    rfl
  · rw [h3 k hk, hz z hm, hc]

/-- The data of the example of `C40_fit` with a constant appended; new samples have something else there. -/
example : fitFrom false (fun _ => false) 3 (⟨2, [[0, 0], [2, 0], [10, 4], [4, 1]]⟩ : DMat ℚ)
      (.ok [[1, 1], [9, 9]]) = .ok [[2, 1 / 3], [10, 4]] ∧
    fitFrom false (fun _ => false) 3 (⟨3, [[0, 0, 7], [2, 0, 7], [10, 4, 7], [4, 1, 7]]⟩ : DMat ℚ)
      (.ok [[1, 1, 7], [9, 9, 7]]) = .ok [[2, 1 / 3, 7], [10, 4, 7]] ∧
    predict [[2, 1 / 3, 7], [10, 4, 7]] (⟨3, [[1, 1, 100], [8, 8, -3]]⟩ : DMat ℚ) = .ok [0, 1] := by decide +kernel

end kmeans

section bayes
open NB ExtraFeature

/-- C163. A constant feature appended to the training data does not influence Gaussian naive Bayes: classes, probabilities and
predictions of all samples are the same, whatever they have in that feature (assertions disabled, first fit, positive smoothing,
some feature not constant within some class). -/
theorem C163_gaussian (smoothing : ℝ) (_hs : 0 < smoothing) (c : ℝ) (X : DMat ℝ) (hx : X.WF) (y : List ℝ)
    (hy : y.length = X.nrows) (hd : 2 ≤ X.ncols)
    (hv : ∃ k ∈ y, ∃ f < X.ncols, 0 < meanSquaredDeviation (featureOf (classRows X.rows y k) f))
    (q : List ℝ → ℝ) (Q : DMat ℝ) (hq : Q.WF) (hqc : Q.ncols = X.ncols) :
    ∃ m g g' J J', fitGaussian smoothing [] X y = .ok (m, g) ∧
      fitGaussian smoothing [] (withFeature (fun _ => c) X) y = .ok (m, g') ∧
      gaussianJLL false (priorsOf m y.length) g Q = .ok J ∧
      gaussianJLL false (priorsOf m y.length) g' (withFeature q Q) = .ok J' ∧
      predictProb m.length J' = predictProb m.length J ∧ predict J' = predict J := by
  obtain ⟨k₀, hk₀, f₀, hf₀, hpos⟩ := hv
  have hn : 0 < X.nrows := by
    rw [← hy]; exact List.length_pos_of_mem hk₀
  set X' : DMat ℝ := withFeature (fun _ => c) X with hX'
  have hx' : X'.WF := wf _ X hx
  have hn' : X'.nrows = X.nrows := nrows _ X
  have hcols : X'.ncols = X.ncols + 1 := rfl
  obtain ⟨m, g, top, e1, e2, e3, e4, e5, ⟨k₁, hk₁, f₁, hf₁, e6⟩, e7⟩ := C71_fit smoothing X hx y hy hn hd
  obtain ⟨m', g', top', e1', e2', e3', e4', e5', ⟨k₂, hk₂, f₂, hf₂, e6'⟩, e7'⟩ :=
    C71_fit smoothing X' hx' y (by rw [hn']; exact hy) (by rw [hn']; exact hn) (by rw [hcols]; omega)
  have hm : m' = m := by
    simp only [fitGaussian, Res.bind_eq_ok] at e1 e1'
    obtain ⟨_, -, _, -, q1⟩ := e1
    obtain ⟨_, -, _, -, q2⟩ := e1'
    rw [← (Prod.mk.inj (Res.ok.inj q1)).1, ← (Prod.mk.inj (Res.ok.inj q2)).1]
  subst hm
  have hne : ∀ k ∈ y, (classRows X.rows y k).length ≠ 0 := fun k hk h0 =>
    classRows_ne_nil X.rows y hy k hk (List.length_eq_zero_iff.mp h0)
  have hold : ∀ k, ∀ f < X.ncols, featureOf (classRows X'.rows y k) f = featureOf (classRows X.rows y k) f := fun k f hf =>
    featureOf_old _ X hx y k f hf
  have hnew : ∀ k ∈ y, meanSquaredDeviation (featureOf (classRows X'.rows y k) X.ncols) = 0 := fun k hk => by
    rw [featureOf_new c X hx y k, msd_replicate _ (hne k hk)]
  have hnewa : ∀ k ∈ y, average (featureOf (classRows X'.rows y k) X.ncols) = c := fun k hk => by
    rw [featureOf_new c X hx y k, average_replicate _ (hne k hk)]
  have htpos : 0 < top := lt_of_lt_of_le hpos (e7 k₀ hk₀ f₀ hf₀)
  have htop : top' = top := by
    refine le_antisymm ?_ ?_
    · rw [e6']
      rw [hcols] at hf₂
      rcases Nat.lt_succ_iff_lt_or_eq.mp hf₂ with h | h
      · rw [hold k₂ f₂ h]; exact e7 k₂ hk₂ f₂ h
      · rw [h, hnew k₂ hk₂]; exact htpos.le
    · rw [e6, ← hold k₁ f₁ hf₁]
      exact e7' k₁ hk₁ f₁ (by rw [hcols]; omega)
  have hps : ∃ p ps, priorsOf m' y.length = p :: ps := by
    have h1 : k₀ ∈ classesOf m' := (e3 k₀).mpr hk₀
    match hm : m' with
    | [] => simp [classesOf] at h1
    | e :: m => exact ⟨_, _, rfl⟩
  obtain ⟨p, ps, hps⟩ := hps
  have hlen : (priorsOf m' y.length).length = m'.length := by simp [priorsOf]
  let s : List ℝ → ℝ := fun x => -(1 / 2) * Real.log (smoothing * top * 2 * Real.pi) - (q x - c) ^ 2 / (smoothing * top) * (1 / 2)
  let F : ℝ → List ℝ → ℝ := fun k x => (match gaussianLL ((List.range X.ncols).map fun f => average (featureOf (classRows X.rows y k) f))
      ((List.range X.ncols).map fun f => meanSquaredDeviation (featureOf (classRows X.rows y k) f) + smoothing * top) x with
    | .ok ll => ll
    | _ => 0) + Real.log p
  have hrow : ∀ x ∈ Q.rows, ∀ k ∈ classesOf m', ∃ ll, F k x = ll + Real.log p ∧
      gaussianLL ((List.range X.ncols).map fun f => average (featureOf (classRows X.rows y k) f))
        ((List.range X.ncols).map fun f => meanSquaredDeviation (featureOf (classRows X.rows y k) f) + smoothing * top) x = .ok ll ∧
      gaussianLL ((List.range X'.ncols).map fun f => average (featureOf (classRows X'.rows y k) f))
        ((List.range X'.ncols).map fun f => meanSquaredDeviation (featureOf (classRows X'.rows y k) f) + smoothing * top')
        (x ++ [q x]) = .ok (ll + s x) := by
    intro x hxm k hk
    have hky := (e3 k).mp hk
    obtain ⟨ll, l1, l2⟩ := gaussianLL_ext ((List.range X.ncols).map fun f => average (featureOf (classRows X.rows y k) f))
      ((List.range X.ncols).map fun f => meanSquaredDeviation (featureOf (classRows X.rows y k) f) + smoothing * top) x
      (by simp [hq x hxm, hqc]) (by simp [hq x hxm, hqc]) c (smoothing * top) (q x)
    refine ⟨ll, by simp only [F, l1], l1, ?_⟩
    rw [← l2, hcols, List.range_succ, List.map_append, List.map_append, List.map_singleton, List.map_singleton, hnew k hky,
      hnewa k hky, zero_add, htop]
    congr 1
    · congr 1
      exact List.map_congr_left fun f hf => by rw [hold k f (List.mem_range.mp hf)]
    · congr 1
      exact List.map_congr_left fun f hf => by rw [hold k f (List.mem_range.mp hf)]
  have hJ : gaussianJLL false (priorsOf m' y.length) g Q =
      .ok ⟨m'.length, Q.rows.map fun x => (classesOf m').map fun k => F k x⟩ := by
    rw [gaussianJLL, e4, e5, hlen, hps]
    rw [Analytic.mapRes_eq_map _ (fun x => (classesOf m').map fun k => F k x) _ fun x hxm => ?_]
    · rfl
    · rw [List.zip_map', mapRes_map]
      refine Analytic.mapRes_eq_map _ _ _ fun k hk => ?_
      obtain ⟨ll, l1, l2, -⟩ := hrow x hxm k hk
      simp only [Function.comp, l2, Res.bind_ok, readAt, List.getElem?_cons_zero, l1]
      simp
  have hJ' : gaussianJLL false (priorsOf m' y.length) g' (withFeature q Q) =
      .ok ⟨m'.length, Q.rows.map fun x => ((classesOf m').map fun k => F k x).map (· + s x)⟩ := by
    rw [gaussianJLL, e4', e5', hlen, hps]
    simp only [withFeature]
    rw [mapRes_map, Analytic.mapRes_eq_map _ (fun x => ((classesOf m').map fun k => F k x).map (· + s x)) _ fun x hxm => ?_]
    · rfl
    · simp only [Function.comp]
      rw [List.zip_map', mapRes_map, List.map_map]
      refine Analytic.mapRes_eq_map _ _ _ fun k hk => ?_
      obtain ⟨ll, l1, -, l2⟩ := hrow x hxm k hk
      simp only [Function.comp, l2, Res.bind_ok, readAt, List.getElem?_cons_zero, l1]
      simp only [Bool.false_eq_true, false_and, if_false]
      congr 1
      ring
  have hcl : (classesOf m').length = m'.length := by simp [classesOf]
  have hmpos : 0 < m'.length := by rw [← hlen, hps]; simp
  have hw : (⟨m'.length, Q.rows.map fun x => (classesOf m').map fun k => F k x⟩ : DMat ℝ).WF := by
    intro r hr
    obtain ⟨x, -, rfl⟩ := List.mem_map.mp hr
    simp [hcl]
  have hw' : (⟨m'.length, Q.rows.map fun x => ((classesOf m').map fun k => F k x).map (· + s x)⟩ : DMat ℝ).WF := by
    intro r hr
    obtain ⟨x, -, rfl⟩ := List.mem_map.mp hr
    simp [hcl]
  refine ⟨m', g, g', _, _, e1, e1', hJ, hJ', ?_, ?_⟩
  · have p1 := predictProb_spec _ hw hmpos
    have p2 := predictProb_spec _ hw' hmpos
    simp only at p1 p2
    rw [p1, p2]
    congr 2
    rw [List.map_map, List.map_map]
    exact List.map_congr_left fun x _ => NB.softmax_shift _ (s x)
  · obtain ⟨ps1, q1, q2⟩ := predict_spec _ hw hmpos
    obtain ⟨ps2, r1, r2⟩ := predict_spec _ hw' hmpos
    rw [q1, r1]
    congr 2
    simp only [List.forall₂_map_left_iff] at q2 r2
    clear q1 r1 hw hw' hJ hJ' hrow
    generalize Q.rows = rows at q2 r2
    clear * - q2 r2
    induction q2 generalizing ps2 with
    | nil => cases r2; rfl
    | cons h1 _ ih =>
      cases r2 with
      | cons h2 r2 => rw [NB.isFirstMax_unique _ _ _ (NB.isFirstMax_shift _ _ _ h2) h1, ih _ r2]

/-- Beside `C163_gaussian`: three samples, of which two of one class differ; the constant 9 has variance 0 plus the smoothing. -/
example : (0 : ℚ) < meanSquaredDeviation (featureOf (classRows [[1, 2], [0, 3], [5, 2]] [7, 5, 7] 7) 0) ∧
    fitGaussian (1 / 4) [] (⟨2, [[1, 2], [0, 3], [5, 2]]⟩ : DMat ℚ) [7, 5, 7] =
      .ok ([(5, 1), (7, 2)], ⟨[[0, 3], [3, 2]], [[1, 1], [5, 1]]⟩) ∧
    fitGaussian (1 / 4) [] (⟨3, [[1, 2, 9], [0, 3, 9], [5, 2, 9]]⟩ : DMat ℚ) [7, 5, 7] =
      .ok ([(5, 1), (7, 2)], ⟨[[0, 3, 9], [3, 2, 9]], [[1, 1, 1], [5, 1, 1]]⟩) := by decide +kernel

end bayes

section linear
open LinearModel Matrix

namespace ExtraFeature

/-- Weights with one more at the place of the last feature. -/
def insertWeight {d : Nat} : (b : Bool) → (Fin (width b d) → ℝ) → ℝ → Fin (width b (d + 1)) → ℝ
  | true, w, v => Fin.snoc (α := fun _ => ℝ) (Fin.snoc (α := fun _ => ℝ) (fun j : Fin d => w (Fin.castSucc j)) v) (w (Fin.last d))
  | false, w, v => Fin.snoc (α := fun _ => ℝ) w v

theorem predict_insert {n d : Nat} (X : Matrix (Fin n) (Fin d) ℝ) (c : Fin n → ℝ) (b : Bool) (w : Fin (width b d) → ℝ) (v : ℝ)
    (i : Fin n) : predict (addColumn X c) b (insertWeight b w v) i = predict X b w i + c i * v := by
  cases b
  · simp only [predict, insertWeight, addColumn, Matrix.mulVec, dotProduct, Matrix.of_apply]
    erw [Fin.sum_univ_castSucc]
    simp only [Fin.snoc_castSucc, Fin.snoc_last]
    erw [Fin.snoc_last]
    congr 1
    refine Finset.sum_congr rfl fun j _ => ?_
    erw [Fin.snoc_castSucc]
  · simp only [predict, insertWeight, addColumn, Matrix.mulVec, dotProduct, Matrix.of_apply]
    rw [Fin.sum_univ_castSucc]
    simp
    ring

theorem squaredNorm_insert {d : Nat} (b : Bool) (w : Fin (width b d) → ℝ) (v : ℝ) :
    squaredNorm (insertWeight b w v) = squaredNorm w + v ^ 2 := by
  cases b
  · unfold squaredNorm
    simp only [insertWeight]
    erw [Fin.sum_univ_castSucc]
    erw [Fin.snoc_last]
    congr 1
    refine Finset.sum_congr rfl fun j _ => ?_
    erw [Fin.snoc_castSucc]
  · unfold squaredNorm
    simp only [insertWeight]
    erw [Fin.sum_univ_castSucc, Fin.sum_univ_castSucc, Fin.sum_univ_castSucc]
    simp
    ring

theorem insert_surjective {d : Nat} (b : Bool) (w : Fin (width b (d + 1)) → ℝ) : ∃ u v, w = insertWeight b u v := by
  cases b
  · refine ⟨fun j : Fin d => w (Fin.castSucc j), w (Fin.last d), ?_⟩
    funext j
    refine Fin.lastCases ?_ (fun j => ?_) j
    · simp [insertWeight]
    · simp [insertWeight]
  · refine ⟨Fin.snoc (α := fun _ => ℝ) (fun j : Fin d => w (Fin.castSucc (Fin.castSucc j))) (w (Fin.last (d + 1))),
      w (Fin.castSucc (Fin.last d)), ?_⟩
    funext j
    refine Fin.lastCases ?_ (fun j => ?_) j
    · simp [insertWeight]
    · refine Fin.lastCases ?_ (fun j => ?_) j
      · simp [insertWeight]
      · simp [insertWeight]

theorem insert_injective {d : Nat} (b : Bool) (u w : Fin (width b d) → ℝ) (v t : ℝ) (h : insertWeight b u v = insertWeight b w t) :
    u = w ∧ v = t := by
  cases b
  · have h1 := congrFun h (Fin.last d)
    simp only [insertWeight] at h1
    erw [Fin.snoc_last, Fin.snoc_last] at h1
    refine ⟨funext fun j => ?_, h1⟩
    have := congrFun h (Fin.castSucc j)
    simp only [insertWeight] at this
    erw [Fin.snoc_castSucc, Fin.snoc_castSucc] at this
    exact this
  · simp only [insertWeight] at h
    have h1 := congrFun h (Fin.castSucc (Fin.last d))
    simp only [Fin.snoc_castSucc, Fin.snoc_last] at h1
    refine ⟨funext fun j => ?_, h1⟩
    refine Fin.lastCases ?_ (fun j => ?_) j
    · have := congrFun h (Fin.last (d + 1))
      simpa using this
    · have := congrFun h (Fin.castSucc (Fin.castSucc j))
      simpa using this

end ExtraFeature

/-- C163. Ridge regression with a feature of zeros appended: the fit succeeds with the same training and test predictions,
whatever test samples have in that feature, and the new weight is 0 (the sum of squared weights does not change). -/
theorem C163_ridge {n d k : Nat} (lambda : ℝ) (hl : 0 < lambda) (b : Bool) (X : Matrix (Fin n) (Fin d) ℝ) (y : Fin n → ℝ)
    (Z : Matrix (Fin k) (Fin d) ℝ) (q : Fin k → ℝ) :
    ∃ w w', fitRidge lambda b X y = some w ∧ fitRidge lambda b (addColumn X 0) y = some w' ∧
      predict (addColumn Z q) b w' = predict Z b w ∧ squaredNorm w' = squaredNorm w := by
  obtain ⟨w, h1, h2⟩ := C56_ridge lambda hl b X y
  obtain ⟨w', h1', h2'⟩ := C56_ridge lambda hl b (addColumn X 0) y
  have hpred : ∀ u v, predict (addColumn X 0) b (ExtraFeature.insertWeight b u v) = predict X b u := fun u v => by
    funext i
    rw [ExtraFeature.predict_insert]
    simp
  have hw : w' = ExtraFeature.insertWeight b w 0 := by
    by_contra hne
    have h3 := h2' _ (Ne.symm hne)
    obtain ⟨u, v, rfl⟩ := ExtraFeature.insert_surjective b w'
    simp only [hpred, ExtraFeature.squaredNorm_insert] at h3
    by_cases hu : u = w
    · subst hu
      nlinarith [sq_nonneg v]
    · have := h2 u hu
      dsimp only at this
      nlinarith [sq_nonneg v]
  refine ⟨w, w', h1, h1', ?_, ?_⟩
  · funext i
    rw [hw, ExtraFeature.predict_insert]
    simp
  · rw [hw, ExtraFeature.squaredNorm_insert]
    simp

/-- Beside `C163_ridge`: the data of one sample with a zero appended. -/
example : addColumn (!![2] : Matrix (Fin 1) (Fin 1) ℝ) 0 = !![2, 0] := by
  ext i j
  fin_cases i
  fin_cases j <;> rfl

/-- C163. Linear regression with a feature appended fails exactly if it failed before, or the new feature is a linear
combination of the others (and, with intercept, a constant). -/
theorem C163_linear {n d : Nat} (b : Bool) (X : Matrix (Fin n) (Fin d) ℝ) (y : Fin n → ℝ) (c : Fin n → ℝ) :
    fitLinear b (addColumn X c) y = none ↔ fitLinear b X y = none ∨ ∃ u, c = predict X b u := by
  rw [(C56_linear b (addColumn X c) y).2, (C56_linear b X y).2]
  have hsub : ∀ u w, predict X b (u - w) = predict X b u - predict X b w := fun u w => by
    simp only [predict_eq, Matrix.mulVec_sub]
  have hsmul : ∀ (r : ℝ) u, predict X b (r • u) = r • predict X b u := fun r u => by
    simp only [predict_eq, Matrix.mulVec_smul]
  constructor
  · rintro ⟨v, w, hne, h⟩
    obtain ⟨v, s, rfl⟩ := ExtraFeature.insert_surjective b v
    obtain ⟨w, t, rfl⟩ := ExtraFeature.insert_surjective b w
    have h' : ∀ i, predict X b v i + c i * s = predict X b w i + c i * t := fun i => by
      have := congrFun h i
      rwa [ExtraFeature.predict_insert, ExtraFeature.predict_insert] at this
    by_cases hst : s = t
    · subst hst
      left
      refine ⟨v, w, fun h0 => hne (by rw [h0]), funext fun i => ?_⟩
      have := h' i
      linarith
    · right
      have hst' : t - s ≠ 0 := sub_ne_zero.mpr (Ne.symm hst)
      refine ⟨(t - s)⁻¹ • (v - w), funext fun i => ?_⟩
      rw [hsmul, hsub, Pi.smul_apply, Pi.sub_apply, smul_eq_mul]
      have := h' i
      field_simp
      linarith
  · rintro (⟨v, w, hne, h⟩ | ⟨u, rfl⟩)
    · refine ⟨ExtraFeature.insertWeight b v 0, ExtraFeature.insertWeight b w 0, fun h0 => hne (ExtraFeature.insert_injective b _ _ _ _ h0).1,
        funext fun i => ?_⟩
      rw [ExtraFeature.predict_insert, ExtraFeature.predict_insert, h]
    · refine ⟨ExtraFeature.insertWeight b u 0, ExtraFeature.insertWeight b 0 1, fun h0 => ?_, funext fun i => ?_⟩
      · exact zero_ne_one (ExtraFeature.insert_injective b _ _ _ _ h0).2
      · rw [ExtraFeature.predict_insert, ExtraFeature.predict_insert, predict_eq X b 0, Matrix.mulVec_zero]
        simp

/-- Beside `C163_linear`: a constant feature is a prediction of weights 0 with intercept. -/
example (X : Matrix (Fin 3) (Fin 1) ℝ) (y : Fin 3 → ℝ) : fitLinear true (addColumn X fun _ => 5) y = none :=
  (C163_linear true X y _).mpr (Or.inr ⟨![0, 5], funext fun i => by
    simp only [predict, Matrix.mulVec, dotProduct]
    simp [Fin.last]⟩)

end linear

end OpenML
