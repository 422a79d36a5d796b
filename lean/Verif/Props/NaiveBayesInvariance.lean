import Verif.Props.NaiveBayes
import Verif.Spec.DecisionTree

/-!
# C95, C96: naive Bayes under reordered samples and changed units
-/

set_option linter.unusedSectionVars false

namespace OpenML
open Spec NB

section order

variable {α : Type} [Field α] [LinearOrder α] [IsStrictOrderedRing α]

theorem NB.map_determined (m : List (α × Nat)) (l : List α) (h : Holds m l) :
    m = (classesOf m).map fun k => (k, l.count k) := by
  rw [classesOf, List.map_map]
  conv_lhs => rw [← List.map_id m]
  refine List.map_congr_left fun e he => ?_
  simp only [id, Function.comp]
  rw [← h.stored e.1, ← entry_stored m h.sorted e he]

theorem NB.countLabels_perm (fits : List (List α)) (y y' : List α) (h : y'.Perm y) :
    countLabels (labelMapAfter fits) y' = countLabels (labelMapAfter fits) y := by
  have h1 := holds_countLabels _ _ y (holds_after fits)
  have h2 := holds_countLabels _ _ y' (holds_after fits)
  have hp : (fits.flatten ++ y').Perm (fits.flatten ++ y) := h.append_left _
  have hc : classesOf (countLabels (labelMapAfter fits) y') = classesOf (countLabels (labelMapAfter fits) y) :=
    h2.sorted.eq_of_mem_iff h1.sorted fun k => by rw [h1.keys, h2.keys, hp.mem_iff]
  rw [NB.map_determined _ _ h2, NB.map_determined _ _ h1, hc]
  exact List.map_congr_left fun k _ => by rw [hp.count_eq]

theorem NB.classRows_perm (X X' : List (List α)) (y y' : List α) (h : (X'.zip y').Perm (X.zip y)) (b : α) :
    (classRows X' y' b).Perm (classRows X y b) := (h.filter _).map _

theorem NB.meanLine_perm (l l' : List α) (h : l'.Perm l) : Stats.meanLine l' = Stats.meanLine l := by
  unfold Stats.meanLine
  rw [h.sum_eq, h.length_eq]
  by_cases hl : l = []
  · have : l' = [] := by rw [hl] at h; exact h.eq_nil
    rw [if_pos hl, if_pos this]
  · have : l' ≠ [] := fun h0 => hl (by rw [h0] at h; exact h.symm.eq_nil)
    rw [if_neg hl, if_neg this]

theorem NB.varLine_perm (l l' : List α) (h : l'.Perm l) : Stats.varLine l' = Stats.varLine l := by
  unfold Stats.varLine
  rw [NB.meanLine_perm _ _ h, NB.meanLine_perm _ _ (h.map _)]

theorem NB.cols_perm (d : Nat) (R R' : List (List α)) (h : R'.Perm R) (f : Nat) :
    ((⟨d, R'⟩ : DMat α).col f).Perm ((⟨d, R⟩ : DMat α).col f) := h.filterMap _

theorem NB.reduce_perm {β : Type} (d : Nat) (R R' : List (List α)) (h : R'.Perm R) (f : List α → β) (g : List α → Res β)
    (hf : ∀ l l', l'.Perm l → f l' = f l) : Stats.reduce f g ⟨d, R'⟩ 0 = Stats.reduce f g ⟨d, R⟩ 0 := by
  simp only [Stats.reduce, if_true]
  congr 3
  simp only [DMat.cols, List.map_map]
  exact List.map_congr_left fun k _ => hf _ _ (NB.cols_perm d R R' h k)

theorem NB.perm_labels (X X' : DMat α) (y y' : List α) (hy : y.length = X.nrows) (hy' : y'.length = X'.nrows)
    (hp : (X'.rows.zip y').Perm (X.rows.zip y)) : y'.Perm y ∧ X'.nrows = X.nrows := by
  have := hp.map Prod.snd
  rw [List.map_snd_zip (by rw [hy']; exact le_rfl), List.map_snd_zip (by rw [hy]; exact le_rfl)] at this
  exact ⟨this, by rw [← hy, ← hy', this.length_eq]⟩

theorem NB.mapRes_congr {β γ δ : Type} (f : β → Res γ) (g : δ → Res γ) (l : List ε) (a : ε → β) (b : ε → δ)
    (h : ∀ e ∈ l, f (a e) = g (b e)) : mapRes f (l.map a) = mapRes g (l.map b) := by
  induction l with
  | nil => rfl
  | cons e l ih =>
    simp only [List.map_cons, mapRes]
    rw [h e (by simp), ih fun e' he => h e' (by simp [he])]

/-- C95. Fitting either naive Bayes model on the same samples in another order gives the same label counts and parameters,
also after earlier fits, and fails for one order exactly if it fails for the other. -/
theorem C95_order (smoothing : α) (checked : Bool) (fits : List (List α)) (X X' : DMat α) (y y' : List α)
    (hx : X.WF) (hx' : X'.WF) (hc : X'.ncols = X.ncols) (hy : y.length = X.nrows) (hy' : y'.length = X'.nrows)
    (hp : (X'.rows.zip y').Perm (X.rows.zip y)) :
    fitGaussian smoothing (labelMapAfter fits) X' y' = fitGaussian smoothing (labelMapAfter fits) X y ∧
    fitMultinomial checked (labelMapAfter fits) X' y' = fitMultinomial checked (labelMapAfter fits) X y := by
  obtain ⟨hpy, hn⟩ := NB.perm_labels X X' y y' hy hy' hp
  by_cases h0 : X.nrows = 0
  · have e1 : X.rows = [] := List.length_eq_zero_iff.mp h0
    have e2 : X'.rows = [] := List.length_eq_zero_iff.mp (hn.trans h0)
    have e3 : y = [] := List.length_eq_zero_iff.mp (hy.trans h0)
    have e4 : y' = [] := List.length_eq_zero_iff.mp (hy'.trans (hn.trans h0))
    obtain ⟨c, R⟩ := X
    obtain ⟨c', R'⟩ := X'
    simp only at e1 e2 hc
    subst e1 e2 e3 e4 hc
    exact ⟨rfl, rfl⟩
  by_cases hd : X.ncols < 2
  · obtain ⟨a1, a2⟩ := C72_few_features checked smoothing fits X hx y hy (by omega) hd
    obtain ⟨b1, b2⟩ := C72_few_features checked smoothing fits X' hx' y' hy' (by omega) (by omega)
    rw [a1, a2, b1, b2]
    exact ⟨rfl, rfl⟩
  have hg := groups_spec X hx y hy (by omega)
  have hg' := groups_spec X' hx' y' hy' (by omega)
  constructor
  · simp only [fitGaussian, updateMeanVariance, NB.countLabels_perm fits y y' hpy, hg, hg', Res.bind_ok, hc]
    rw [NB.mapRes_congr (fun g => definedRow (Stats.mean g 0)) (fun g => definedRow (Stats.mean g 0)) _
        (fun b => (⟨X.ncols, classRows X'.rows y' b⟩ : DMat α)) (fun b => ⟨X.ncols, classRows X.rows y b⟩) fun b _ => by
          simp only [Stats.mean]
          rw [NB.reduce_perm _ _ _ (NB.classRows_perm _ _ _ _ hp b) _ _ NB.meanLine_perm],
      NB.mapRes_congr (fun g => definedRow (Stats.var g 0)) (fun g => definedRow (Stats.var g 0)) _
        (fun b => (⟨X.ncols, classRows X'.rows y' b⟩ : DMat α)) (fun b => ⟨X.ncols, classRows X.rows y b⟩) fun b _ => by
          simp only [Stats.var]
          rw [NB.reduce_perm _ _ _ (NB.classRows_perm _ _ _ _ hp b) _ _ NB.varLine_perm]]
  · cases checked with
    | true =>
      rw [C72_multinomial_checked fits X hx y hy (by omega), C72_multinomial_checked fits X' hx' y' hy' (by omega)]
    | false =>
      simp only [fitMultinomial, NB.countLabels_perm fits y y' hpy, hg, hg', Res.bind_ok, hc]
      rw [NB.mapRes_congr (countGroup false) (countGroup false) _ (fun b => (⟨X.ncols, classRows X'.rows y' b⟩ : DMat α))
        (fun b => ⟨X.ncols, classRows X.rows y b⟩) fun b _ => by
          rw [countGroup_spec _ _ (classRows_width X hx y b), countGroup_spec X.ncols _ (by
            have := classRows_width X' hx' y' b
            rwa [hc] at this)]
          have : ∀ f, (featureOf (classRows X'.rows y' b) f).sum = (featureOf (classRows X.rows y b) f).sum := fun f =>
            ((NB.classRows_perm _ _ _ _ hp b).map _).sum_eq
          simp only [this]]

/-- Three samples in two orders, with a successful fit. -/
example : (([[0, 3], [5, 2], [1, 2]] : List (List ℚ)).zip [5, 7, 7]).Perm ([[1, 2], [0, 3], [5, 2]].zip [7, 5, 7]) ∧
    fitGaussian (1 / 4) [] (⟨2, [[0, 3], [5, 2], [1, 2]]⟩ : DMat ℚ) [5, 7, 7] =
      .ok ([(5, 1), (7, 2)], ⟨[[0, 3], [3, 2]], [[1, 1], [5, 1]]⟩) := by decide +kernel

end order

section units

theorem NB.average_affine (c b : ℝ) (l : List ℝ) (hl : l ≠ []) :
    average (l.map fun a => c * a + b) = c * average l + b := by
  have hn : (l.length : ℝ) ≠ 0 := Nat.cast_ne_zero.mpr (by simpa using hl)
  have : (l.map fun a => c * a + b).sum = c * l.sum + l.length * b := by
    clear hl hn
    induction l with
    | nil => simp
    | cons a l ih =>
      simp only [List.map_cons, List.sum_cons, ih, List.length_cons]
      push_cast
      ring
  rw [average, average, this, List.length_map]
  field_simp

theorem NB.msd_affine (c b : ℝ) (l : List ℝ) (hl : l ≠ []) :
    meanSquaredDeviation (l.map fun a => c * a + b) = c ^ 2 * meanSquaredDeviation l := by
  have h0 : ∀ m : List ℝ, m ≠ [] → average (m.map fun a => c ^ 2 * a) = c ^ 2 * average m := fun m hm => by
    have := NB.average_affine (c ^ 2) 0 m hm
    simpa using this
  rw [meanSquaredDeviation, NB.average_affine c b l hl, List.map_map, meanSquaredDeviation, ← h0 _ (by simpa using hl), List.map_map]
  congr 1
  refine List.map_congr_left fun a _ => ?_
  simp only [Function.comp]
  ring

theorem NB.feature_rescaled (c : ℝ) (b : Nat → ℝ) (X : DMat ℝ) (hx : X.WF) (y : List ℝ) (k : ℝ) (f : Nat) (hf : f < X.ncols) :
    featureOf (classRows (X.rows.map (rescaleRow (fun _ => c) b)) y k) f =
      (featureOf (classRows X.rows y k) f).map fun a => c * a + b f := by
  have h1 : classRows (X.rows.map (rescaleRow (fun _ => c) b)) y k =
      (classRows X.rows y k).map (rescaleRow (fun _ => c) b) := by
    unfold classRows
    rw [← List.map_id y, List.zip_map, List.filter_map, List.map_map, List.map_map, List.map_id]
    rfl
  rw [h1, featureOf, featureOf, List.map_map, List.map_map]
  refine List.map_congr_left fun r hr => ?_
  have hlen := classRows_width X hx y k r hr
  simp only [Function.comp, rescaleRow, List.getD_eq_getElem?_getD, List.getElem?_mapIdx,
    List.getElem?_eq_getElem (show f < r.length by omega), Option.map_some, Option.getD_some]

theorem NB.gaussianLL_rescaled (c : ℝ) (hc : c ≠ 0) (d : Nat) (b μ v : Nat → ℝ) (hv : ∀ f < d, 0 < v f) (x : List ℝ)
    (hx : x.length = d) :
    ∃ ll, gaussianLL ((List.range d).map μ) ((List.range d).map v) x = .ok ll ∧
      gaussianLL ((List.range d).map fun f => c * μ f + b f) ((List.range d).map fun f => c ^ 2 * v f)
        (rescaleRow (fun _ => c) b x) = .ok (ll + -(d : ℝ) * Real.log |c|) := by
  refine ⟨_, by rw [gaussianLL, if_pos (by simp [hx])], ?_⟩
  rw [gaussianLL, if_pos (by simp [hx, rescaleRow])]
  congr 1
  have e1 : sumLogVar ((List.range d).map fun f => c ^ 2 * v f) =
      sumLogVar ((List.range d).map v) + -(d : ℝ) * Real.log |c| := by
    unfold sumLogVar
    rw [List.map_map, List.map_map]
    have : ((List.range d).map ((fun v => Real.log (v * 2 * Real.pi)) ∘ fun f => c ^ 2 * v f)).sum =
        ((List.range d).map ((fun v => Real.log (v * 2 * Real.pi)) ∘ v)).sum + d * (2 * Real.log |c|) := by
      have h1 : (List.range d).map ((fun v => Real.log (v * 2 * Real.pi)) ∘ fun f => c ^ 2 * v f) =
          (List.range d).map fun f => 2 * Real.log |c| + ((fun v => Real.log (v * 2 * Real.pi)) ∘ v) f := by
        refine List.map_congr_left fun f hf => ?_
        have hvf := hv f (List.mem_range.mp hf)
        simp only [Function.comp]
        rw [show c ^ 2 * v f * 2 * Real.pi = |c| ^ 2 * (v f * 2 * Real.pi) by rw [sq_abs]; ring,
          Real.log_mul (by positivity) (by positivity), Real.log_pow]
        push_cast
        ring
      rw [h1, List.sum_map_add, List.map_const', List.sum_replicate, List.length_range, nsmul_eq_mul]
      ring
    rw [this]
    ring
  have e2 : List.zipWith (fun c v => c / v) (List.zipWith (fun a m => (a - m) ^ 2) (rescaleRow (fun _ => c) b x)
        ((List.range d).map fun f => c * μ f + b f)) ((List.range d).map fun f => c ^ 2 * v f) =
      List.zipWith (fun c v => c / v) (List.zipWith (fun a m => (a - m) ^ 2) x ((List.range d).map μ)) ((List.range d).map v) := by
    refine List.ext_getElem (by simp [rescaleRow]) fun i h1 h2 => ?_
    simp only [List.length_zipWith, List.length_map, List.length_range] at h2
    have hvi := hv i (by omega)
    simp only [List.getElem_zipWith, List.getElem_map, List.getElem_range, rescaleRow, List.getElem_mapIdx]
    have : c ^ 2 ≠ 0 := pow_ne_zero _ hc
    rw [show (c * x[i] + b i - (c * μ i + b i)) ^ 2 = c ^ 2 * (x[i] - μ i) ^ 2 by ring, mul_div_mul_left _ _ this]
  rw [e1, e2]
  ring

theorem NB.isFirstMax_unique (l : List ℝ) (p q : Nat) (h1 : IsFirstMax l p) (h2 : IsFirstMax l q) : p = q := by
  obtain ⟨v, a1, a2⟩ := h1
  obtain ⟨w, b1, b2⟩ := h2
  have e := le_antisymm (a2 q w b1).1 (b2 p v a1).1
  exact le_antisymm ((a2 q w b1).2 e) ((b2 p v a1).2 e.symm)

theorem NB.isFirstMax_shift (l : List ℝ) (s : ℝ) (p : Nat) (h : IsFirstMax (l.map (· + s)) p) : IsFirstMax l p := by
  obtain ⟨v, a1, a2⟩ := h
  rw [List.getElem?_map] at a1
  obtain ⟨u, hu, rfl⟩ := Option.map_eq_some_iff.mp a1
  refine ⟨u, hu, fun q w hq => ?_⟩
  have := a2 q (w + s) (by rw [List.getElem?_map, hq]; rfl)
  exact ⟨by linarith [this.1], fun he => this.2 (by rw [he])⟩

theorem NB.softmax_shift (l : List ℝ) (s : ℝ) : softmaxOf (l.map (· + s)) = softmaxOf l := by
  have h1 : sumExp (l.map (· + s)) = sumExp l * Real.exp s := by
    rw [sumExp, sumExp, List.map_map, ← List.sum_map_mul_right]
    congr 1
    exact List.map_congr_left fun a _ => by simp [Real.exp_add]
  rw [softmaxOf, softmaxOf, h1, List.map_map]
  refine List.map_congr_left fun a _ => ?_
  simp only [Function.comp]
  rw [Real.exp_add, mul_div_mul_right _ _ (Real.exp_ne_zero s)]

/-- C96. Gaussian naive Bayes does not depend on the unit and the zero points of the features: multiplying all features by one
non-zero factor and shifting each by its own offset, in the training data and in the queries, leaves classes, probabilities
and predictions unchanged (assertions disabled, first fit, positive smoothing, some feature not constant within some
class). -/
theorem C96_units (smoothing : ℝ) (hs : 0 < smoothing) (c : ℝ) (hc : c ≠ 0) (b : Nat → ℝ) (X : DMat ℝ) (hx : X.WF)
    (y : List ℝ) (hy : y.length = X.nrows) (hd : 2 ≤ X.ncols)
    (hv : ∃ k ∈ y, ∃ f < X.ncols, 0 < meanSquaredDeviation (featureOf (classRows X.rows y k) f))
    (Q : DMat ℝ) (hq : Q.WF) (hqc : Q.ncols = X.ncols) :
    ∃ m g g' J J', fitGaussian smoothing [] X y = .ok (m, g) ∧
      fitGaussian smoothing [] ⟨X.ncols, X.rows.map (rescaleRow (fun _ => c) b)⟩ y = .ok (m, g') ∧
      gaussianJLL false (priorsOf m y.length) g Q = .ok J ∧
      gaussianJLL false (priorsOf m y.length) g' ⟨Q.ncols, Q.rows.map (rescaleRow (fun _ => c) b)⟩ = .ok J' ∧
      predictProb m.length J' = predictProb m.length J ∧ predict J' = predict J := by
  obtain ⟨k₀, hk₀, f₀, hf₀, hpos⟩ := hv
  have hn : 0 < X.nrows := by
    rw [← hy]; exact List.length_pos_of_mem hk₀
  set X' : DMat ℝ := ⟨X.ncols, X.rows.map (rescaleRow (fun _ => c) b)⟩ with hX'
  have hx' : X'.WF := by
    intro r hr
    obtain ⟨q, hq, rfl⟩ := List.mem_map.mp hr
    simp only [rescaleRow, List.length_mapIdx]
    exact hx q hq
  have hn' : X'.nrows = X.nrows := by simp [hX', DMat.nrows]
  obtain ⟨m, g, top, e1, e2, e3, e4, e5, ⟨k₁, hk₁, f₁, hf₁, e6⟩, e7⟩ := C71_fit smoothing X hx y hy hn hd
  obtain ⟨m', g', top', e1', e2', e3', e4', e5', ⟨k₂, hk₂, f₂, hf₂, e6'⟩, e7'⟩ :=
    C71_fit smoothing X' hx' y (by rw [hn']; exact hy) (by rw [hn']; exact hn) hd
  have hm : m' = m := by
    simp only [fitGaussian, Res.bind_eq_ok] at e1 e1'
    obtain ⟨_, -, _, -, q1⟩ := e1
    obtain ⟨_, -, _, -, q2⟩ := e1'
    rw [← (Prod.mk.inj (Res.ok.inj q1)).1, ← (Prod.mk.inj (Res.ok.inj q2)).1]
  subst hm
  have hne : ∀ k ∈ y, ∀ f, featureOf (classRows X.rows y k) f ≠ [] := fun k hk f h0 =>
    classRows_ne_nil X.rows y hy k hk (by simpa [featureOf] using h0)
  have hfeat : ∀ k, ∀ f < X.ncols, featureOf (classRows X'.rows y k) f =
      (featureOf (classRows X.rows y k) f).map fun a => c * a + b f := fun k f hf => NB.feature_rescaled c b X hx y k f hf
  have hmsd : ∀ k ∈ y, ∀ f < X.ncols, meanSquaredDeviation (featureOf (classRows X'.rows y k) f) =
      c ^ 2 * meanSquaredDeviation (featureOf (classRows X.rows y k) f) := fun k hk f hf => by
    rw [hfeat k f hf, NB.msd_affine _ _ _ (hne k hk f)]
  have havg : ∀ k ∈ y, ∀ f < X.ncols, average (featureOf (classRows X'.rows y k) f) =
      c * average (featureOf (classRows X.rows y k) f) + b f := fun k hk f hf => by
    rw [hfeat k f hf, NB.average_affine _ _ _ (hne k hk f)]
  have hc2 : 0 < c ^ 2 := by positivity
  have htop : top' = c ^ 2 * top := by
    refine le_antisymm ?_ ?_
    · rw [e6', hmsd k₂ hk₂ f₂ hf₂]
      exact mul_le_mul_of_nonneg_left (e7 k₂ hk₂ f₂ hf₂) hc2.le
    · rw [e6, ← hmsd k₁ hk₁ f₁ hf₁]
      exact e7' k₁ hk₁ f₁ hf₁
  have htpos : 0 < top := lt_of_lt_of_le hpos (e7 k₀ hk₀ f₀ hf₀)
  have hmsd0 : ∀ l : List ℝ, 0 ≤ meanSquaredDeviation l := fun l => by
    unfold meanSquaredDeviation average
    refine div_nonneg (List.sum_nonneg fun a ha => ?_) (Nat.cast_nonneg _)
    obtain ⟨u, -, rfl⟩ := List.mem_map.mp ha
    positivity
  have hps : ∃ p ps, priorsOf m' y.length = p :: ps := by
    have h1 : k₀ ∈ classesOf m' := (e3 k₀).mpr hk₀
    match hm : m' with
    | [] => simp [classesOf] at h1
    | e :: m => exact ⟨_, _, rfl⟩
  obtain ⟨p, ps, hps⟩ := hps
  have hlen : (priorsOf m' y.length).length = m'.length := by simp [priorsOf]
  let s : ℝ := -(X.ncols : ℝ) * Real.log |c|
  let F : ℝ → List ℝ → ℝ := fun k x => (match gaussianLL ((List.range X.ncols).map fun f => average (featureOf (classRows X.rows y k) f))
      ((List.range X.ncols).map fun f => meanSquaredDeviation (featureOf (classRows X.rows y k) f) + smoothing * top) x with
    | .ok ll => ll
    | _ => 0) + Real.log p
  have hrow : ∀ x ∈ Q.rows, ∀ k ∈ classesOf m', ∃ ll, F k x = ll + Real.log p ∧
      gaussianLL ((List.range X.ncols).map fun f => average (featureOf (classRows X.rows y k) f))
        ((List.range X.ncols).map fun f => meanSquaredDeviation (featureOf (classRows X.rows y k) f) + smoothing * top) x = .ok ll ∧
      gaussianLL ((List.range X.ncols).map fun f => average (featureOf (classRows X'.rows y k) f))
        ((List.range X.ncols).map fun f => meanSquaredDeviation (featureOf (classRows X'.rows y k) f) + smoothing * top')
        (rescaleRow (fun _ => c) b x) = .ok (ll + s) := by
    intro x hxm k hk
    have hky := (e3 k).mp hk
    obtain ⟨ll, l1, l2⟩ := NB.gaussianLL_rescaled c hc X.ncols b (fun f => average (featureOf (classRows X.rows y k) f))
      (fun f => meanSquaredDeviation (featureOf (classRows X.rows y k) f) + smoothing * top)
      (fun f _ => by have := hmsd0 (featureOf (classRows X.rows y k) f); positivity) x (by rw [hq x hxm, hqc])
    refine ⟨ll, by simp only [F, l1], l1, ?_⟩
    rw [← l2]
    congr 1
    · exact List.map_congr_left fun f hf => havg k hky f (List.mem_range.mp hf)
    · refine List.map_congr_left fun f hf => ?_
      rw [hmsd k hky f (List.mem_range.mp hf), htop]
      ring
  have hJ : gaussianJLL false (priorsOf m' y.length) g Q =
      .ok ⟨m'.length, Q.rows.map fun x => (classesOf m').map fun k => F k x⟩ := by
    rw [gaussianJLL, e4, e5, hlen, hps]
    rw [Analytic.mapRes_eq_map _ (fun x => (classesOf m').map fun k => F k x) _ fun x hxm => ?_]
    · rfl
    · rw [List.zip_map', mapRes_map]
      refine Analytic.mapRes_eq_map _ _ _ fun k hk => ?_
      obtain ⟨ll, l1, l2, -⟩ := hrow x hxm k hk
      simp only [Function.comp, l2, Res.bind_ok, readAt, List.getElem?_cons_zero, l1]
      simp
  have hJ' : gaussianJLL false (priorsOf m' y.length) g' ⟨Q.ncols, Q.rows.map (rescaleRow (fun _ => c) b)⟩ =
      .ok ⟨m'.length, Q.rows.map fun x => ((classesOf m').map fun k => F k x).map (· + s)⟩ := by
    rw [gaussianJLL, e4', e5', hlen, hps]
    rw [mapRes_map, Analytic.mapRes_eq_map _ (fun x => ((classesOf m').map fun k => F k x).map (· + s)) _ fun x hxm => ?_]
    · rfl
    · simp only [Function.comp]
      rw [List.zip_map', mapRes_map, List.map_map]
      refine Analytic.mapRes_eq_map _ _ _ fun k hk => ?_
      obtain ⟨ll, l1, -, l2⟩ := hrow x hxm k hk
      have l3 := l2
      rw [show X.ncols = X'.ncols from rfl] at l3
      simp only [Function.comp, l3, Res.bind_ok, readAt, List.getElem?_cons_zero, l1]
      simp only [Bool.false_eq_true, false_and, if_false]
      congr 1
      ring
  have hcl : (classesOf m').length = m'.length := by simp [classesOf]
  have hmpos : 0 < m'.length := by rw [← hlen, hps]; simp
  have hw : (⟨m'.length, Q.rows.map fun x => (classesOf m').map fun k => F k x⟩ : DMat ℝ).WF := by
    intro r hr
    obtain ⟨x, -, rfl⟩ := List.mem_map.mp hr
    simp [hcl]
  have hw' : (⟨m'.length, Q.rows.map fun x => ((classesOf m').map fun k => F k x).map (· + s)⟩ : DMat ℝ).WF := by
    intro r hr
    obtain ⟨x, -, rfl⟩ := List.mem_map.mp hr
    simp [hcl]
  refine ⟨m', g, g', _, _, e1, e1', hJ, hJ', ?_, ?_⟩
  · have p1 := predictProb_spec _ hw hmpos
    have p2 := predictProb_spec _ hw' hmpos
    simp only at p1 p2
    rw [p1, p2]
    congr 2
    rw [List.map_map, List.map_map]
    exact List.map_congr_left fun x _ => NB.softmax_shift _ s
  · obtain ⟨ps1, q1, q2⟩ := predict_spec _ hw hmpos
    obtain ⟨ps2, r1, r2⟩ := predict_spec _ hw' hmpos
    rw [q1, r1]
    congr 2
    simp only [List.forall₂_map_left_iff] at q2 r2
    clear q1 r1 hw hw' hJ hJ' hrow
    generalize Q.rows = rows at q2 r2
    clear * - q2 r2
    induction q2 generalizing ps2 with
    | nil => cases r2; rfl
    | cons h1 _ ih =>
      cases r2 with
      | cons h2 r2 => rw [NB.isFirstMax_unique _ _ _ (NB.isFirstMax_shift _ s _ h2) h1, ih _ r2]

/-- Two classes with different spread. -/
example : ∃ k ∈ [(7 : ℝ), 5, 7], ∃ f < 2, 0 < meanSquaredDeviation
    (featureOf (classRows [[1, 2], [0, 3], [5, 2]] [(7 : ℝ), 5, 7] k) f) := by
  refine ⟨7, by simp, 0, by norm_num, ?_⟩
  simp [classRows, featureOf, meanSquaredDeviation, average]
  norm_num

end units

end OpenML
