import Verif.Props.LinearFit
import Verif.Props.Analytic

/-!
# What perceptron and softmax regression ignore (C81, C82)
-/

namespace OpenML

open SGD Spec LinearFit Loss

set_option linter.unusedSectionVars false

section Triples
variable {α : Type}

theorem scatter_map {β γ : Type} (f : β → γ) (p : List Nat) (X acc : List β) :
    Data.scatter p (X.map f) (acc.map f) = (Data.scatter p X acc).map f := by
  induction p generalizing X acc with
  | nil => simp [Data.scatter]
  | cons i p ih =>
    cases X with
    | nil => simp [Data.scatter]
    | cons x X =>
      rw [List.map_cons, Data.scatter, Data.scatter, ← List.map_set]
      exact ih X (acc.set i x)

theorem mem_scatter {β : Type} (p : List Nat) (X acc : List β) (b : β) (h : b ∈ Data.scatter p X acc) : b ∈ X ∨ b ∈ acc := by
  induction p generalizing X acc with
  | nil => exact Or.inr (by simpa [Data.scatter] using h)
  | cons i p ih =>
    cases X with
    | nil => exact Or.inr (by simpa [Data.scatter] using h)
    | cons x X =>
      rw [Data.scatter] at h
      rcases ih X (acc.set i x) h with h | h
      · exact Or.inl (List.mem_cons_of_mem _ h)
      · rcases List.mem_or_eq_of_mem_set h with h | h
        · exact Or.inr h
        · exact Or.inl (h ▸ List.mem_cons_self)

theorem permuteRows_map {β γ : Type} (f : β → γ) (p : List Nat) (X : List β) :
    Data.permuteRows p (X.map f) = if p.length = X.length then .ok ((Data.scatter p X X).map f) else .ub := by
  unfold Data.permuteRows
  rw [List.length_map, scatter_map]

theorem middleRows_map {β γ : Type} (f : β → γ) (X : List β) (i n : Nat) :
    middleRows (X.map f) i n = if i + n ≤ X.length then .ok (((X.drop i).take n).map f) else .ub := by
  unfold middleRows
  rw [List.length_map, ← List.map_drop, ← List.map_take]

/-- Label, row of one data set, row of the other data set. -/
abbrev Triple (α : Type) := α × List α × List α

variable [Field α] [LinearOrder α] [IsStrictOrderedRing α]

/-- Rows of equal length that differ only for label zero. -/
def Same (t : Triple α) : Prop := t.2.1.length = t.2.2.length ∧ (t.1 ≠ 0 → t.2.1 = t.2.2)

theorem batchLoop_same {W S : Type} (loss : LossFn α W) (weights : S → W) (step : Step α S) (d b : Nat) (lr : α)
    (hs : ∀ s (T : List (Triple α)) j, (∀ t ∈ T, Same t) →
      step s ⟨d, T.map (·.2.1)⟩ (T.map (·.1)) lr j = step s ⟨d, T.map (·.2.2)⟩ (T.map (·.1)) lr j)
    (he : ∀ (T : List (Triple α)) w, (∀ t ∈ T, Same t) →
      loss.evaluate ⟨d, T.map (·.2.1)⟩ (T.map (·.1)) w = loss.evaluate ⟨d, T.map (·.2.2)⟩ (T.map (·.1)) w)
    (T : List (Triple α)) (hT : ∀ t ∈ T, Same t) (n j : Nat) (s : S) :
    batchLoop loss weights step b ⟨d, T.map (·.2.1)⟩ (T.map (·.1)) lr n j s =
      batchLoop loss weights step b ⟨d, T.map (·.2.2)⟩ (T.map (·.1)) lr n j s := by
  induction n generalizing j s with
  | zero => rfl
  | succ n ih =>
    simp only [batchLoop, middleRows_map]
    by_cases h : j * b + b ≤ T.length
    · have hsub : ∀ t ∈ (T.drop (j * b)).take b, Same t := fun t ht => hT t (List.mem_of_mem_drop (List.mem_of_mem_take ht))
      simp only [if_pos h, Res.bind_ok]
      rw [hs s _ j hsub]
      congr 1
      funext s'
      rw [he _ _ hsub]
      congr 1
      funext l
      rw [ih]
    · simp only [if_neg h, Res.bind_ub]

theorem epochLoop_same {W S : Type} (loss : LossFn α W) (weights : S → W) (step : Step α S) (p : Params α) (d k : Nat)
    (hs : ∀ s (T : List (Triple α)) lr j, (∀ t ∈ T, Same t) →
      step s ⟨d, T.map (·.2.1)⟩ (T.map (·.1)) lr j = step s ⟨d, T.map (·.2.2)⟩ (T.map (·.1)) lr j)
    (he : ∀ (T : List (Triple α)) w, (∀ t ∈ T, Same t) →
      loss.evaluate ⟨d, T.map (·.2.1)⟩ (T.map (·.1)) w = loss.evaluate ⟨d, T.map (·.2.2)⟩ (T.map (·.1)) w)
    (n iter : Nat) (T : List (Triple α)) (hT : ∀ t ∈ T, Same t) (s : S) (best : Option α) (count : Nat) :
    epochLoop loss weights step p k n iter ⟨d, T.map (·.2.1)⟩ (T.map (·.1)) s best count =
      epochLoop loss weights step p k n iter ⟨d, T.map (·.2.2)⟩ (T.map (·.1)) s best count := by
  induction n generalizing iter T s best count with
  | zero => rfl
  | succ n ih =>
    have key : ∀ T' : List (Triple α), (∀ t ∈ T', Same t) →
        shuffleXY p.shuffle iter ⟨d, T.map (·.2.1)⟩ (T.map (·.1)) = .ok (⟨d, T'.map (·.2.1)⟩, T'.map (·.1)) →
        shuffleXY p.shuffle iter ⟨d, T.map (·.2.2)⟩ (T.map (·.1)) = .ok (⟨d, T'.map (·.2.2)⟩, T'.map (·.1)) →
        epochLoop loss weights step p k (n + 1) iter ⟨d, T.map (·.2.1)⟩ (T.map (·.1)) s best count =
          epochLoop loss weights step p k (n + 1) iter ⟨d, T.map (·.2.2)⟩ (T.map (·.1)) s best count := by
      intro T' hT' h1 h2
      simp only [epochLoop, epoch, h1, h2, Res.bind_ok]
      cases p.decay iter with
      | ok lr =>
        simp only [Res.bind_ok]
        rw [batchLoop_same loss weights step d p.batchSize lr (fun s T j => hs s T lr j) he T' hT']
        cases batchLoop loss weights step p.batchSize ⟨d, T'.map (·.2.2)⟩ (T'.map (·.1)) lr k 0 s with
        | ok r =>
          simp only [Res.bind_ok]
          rw [ih _ T' hT']
        | throw e => rfl
        | ub => rfl
        | diverge => rfl
      | throw e => rfl
      | ub => rfl
      | diverge => rfl
    cases hsh : p.shuffle with
    | none => exact key T hT (by simp only [shuffleXY, hsh]) (by simp only [shuffleXY, hsh])
    | some q =>
      by_cases hl : (q iter).length = T.length
      · refine key (Data.scatter (q iter) T T) (fun t ht => hT t ((mem_scatter _ _ _ _ ht).elim id id)) ?_ ?_
        · simp only [shuffleXY, hsh, permuteRows_map, if_pos hl, Res.bind_ok]
        · simp only [shuffleXY, hsh, permuteRows_map, if_pos hl, Res.bind_ok]
      · simp only [epochLoop, epoch, shuffleXY, hsh, permuteRows_map, if_neg hl, Res.bind_ub]

theorem hingeGradLoop_congr (w : List α) (T : List (Triple α)) (hT : ∀ t ∈ T, Same t) (g : List α) :
    hingeGradLoop 0 (T.map (·.2.1)) ((T.map (·.2.1)).map fun r => dotL r w) (T.map (·.1)) g =
      hingeGradLoop 0 (T.map (·.2.2)) ((T.map (·.2.2)).map fun r => dotL r w) (T.map (·.1)) g := by
  induction T generalizing g with
  | nil => rfl
  | cons t T ih =>
    have ih := ih (fun t ht => hT t (List.mem_cons_of_mem _ ht))
    obtain ⟨hl, he⟩ := hT t List.mem_cons_self
    simp only [List.map_cons, hingeGradLoop]
    by_cases h0 : t.1 = 0
    · have h : ∀ r : List α, r.map (fun x => x * (-t.1)) = List.replicate r.length 0 := by
        intro r
        rw [h0]
        simp
      rw [h, h, hl]
      simp only [h0, mul_zero, gt_iff_lt, lt_irrefl, if_false, ih]
    · rw [he h0]
      simp only [ih]

theorem hingeSum_congr (w : List α) (T : List (Triple α)) (hT : ∀ t ∈ T, Same t) (acc : α) :
    hingeSum 0 ((T.map (·.2.1)).map fun r => dotL r w) (T.map (·.1)) acc =
      hingeSum 0 ((T.map (·.2.2)).map fun r => dotL r w) (T.map (·.1)) acc := by
  induction T generalizing acc with
  | nil => rfl
  | cons t T ih =>
    have ih := ih (fun t ht => hT t (List.mem_cons_of_mem _ ht))
    obtain ⟨hl, he⟩ := hT t List.mem_cons_self
    simp only [List.map_cons, hingeSum]
    by_cases h0 : t.1 = 0
    · simp only [h0, mul_zero, ih]
    · rw [he h0, ih]

/-- C81: samples with label 0 have no influence on `Perceptron::fit`: two data sets with the same labels whose features agree on
the samples with labels other than 0 lead to the same result, with or without shuffling. -/
theorem C81_label_zero_ignored (lambda : α) (buffer : List α) (p : Params α) (X X' : DMat α) (hX : X.WF) (hX' : X'.WF)
    (hc : X.ncols = X'.ncols) (y : List α) (hy : y.length = X.nrows) (hy' : y.length = X'.nrows)
    (hag : ∀ (i : Nat) (a : α), y[i]? = some a → a ≠ 0 → X.rows[i]? = X'.rows[i]?) (init : List α) :
    fitPerceptron lambda buffer p X y init = fitPerceptron lambda buffer p X' y init := by
  obtain ⟨d, rows⟩ := X
  obtain ⟨d', rows'⟩ := X'
  cases hc
  simp only [DMat.nrows] at hy hy'
  have e1 : (y.zip (rows.zip rows')).map (·.1) = y := by
    rw [List.map_fst_zip]
    rw [List.length_zip]
    omega
  have e2 : (y.zip (rows.zip rows')).map (·.2.1) = rows := by
    rw [show (fun t : Triple α => t.2.1) = Prod.fst ∘ Prod.snd from rfl, ← List.map_map, List.map_snd_zip, List.map_fst_zip]
    · omega
    · rw [List.length_zip]
      omega
  have e3 : (y.zip (rows.zip rows')).map (·.2.2) = rows' := by
    rw [show (fun t : Triple α => t.2.2) = Prod.snd ∘ Prod.snd from rfl, ← List.map_map, List.map_snd_zip, List.map_snd_zip]
    · omega
    · rw [List.length_zip]
      omega
  have hT : ∀ t ∈ y.zip (rows.zip rows'), Same t := by
    intro t ht
    obtain ⟨i, hi, rfl⟩ := List.mem_iff_getElem.mp ht
    rw [List.length_zip, List.length_zip] at hi
    simp only [List.getElem_zip]
    refine ⟨(hX _ (List.getElem_mem _)).trans (hX' _ (List.getElem_mem _)).symm, fun h0 => ?_⟩
    have := hag i _ (List.getElem?_eq_getElem (by omega)) h0
    dsimp only at this
    rw [List.getElem?_eq_getElem (by omega), List.getElem?_eq_getElem (by omega)] at this
    simpa using this
  generalize y.zip (rows.zip rows') = T at e1 e2 e3 hT
  subst e1 e2 e3
  unfold fitPerceptron sgd optimize
  simp only [DMat.nrows, List.length_map]
  split
  · rfl
  · refine epochLoop_same _ _ _ p d _ (fun s T lr j hT => ?_) (fun T w hT => ?_) _ _ T hT _ _ _
    · simp only [sgdStep, hingeGradient, mulVec, DMat.nrows, List.length_map]
      split
      · simp only [Res.bind_ok, hingeGradLoop_congr s T hT]
      · rfl
    · simp only [hingeEvaluate, mulVec, DMat.nrows, List.length_map]
      split
      · simp only [Res.bind_ok, hingeSum_congr w T hT]
      · rfl

/-- C81: `Perceptron::predict` never returns -1, so that with labels 1 and -1, which the hinge loss is made for, no sample of the
second class is predicted. -/
theorem C81_predict_never_negative (intercept : Bool) (w : List α) (X : DMat α) (ys : List α)
    (h : predictPerceptron intercept w X = .ok ys) : -1 ∉ ys := by
  unfold predictPerceptron at h
  obtain ⟨s, hs, h⟩ := Res.bind_eq_ok.mp h
  cases h
  intro hmem
  obtain ⟨a, -, ha⟩ := List.mem_map.mp hmem
  split at ha
  · have := neg_one_lt_zero (R := α)
    rw [← ha] at this
    exact absurd this (by norm_num)
  · have := neg_one_lt_zero (R := α)
    rw [← ha] at this
    exact absurd this (by norm_num)

end Triples

/-- Example for C81: the features of the sample with label 0 do not matter, those of the sample with label 1 do. -/
example :
    let p : Params ℚ := ⟨3, 1, 1, 1 / 10, stepDecay (1 / 2) (1 / 2) 10, some fun _ => [1, 0]⟩
    fitPerceptron (1 / 10) [0] p ⟨1, [[-1], [1]]⟩ [0, 1] [0] = .ok [6859 / 16000] ∧
    fitPerceptron (1 / 10) [0] p ⟨1, [[50], [1]]⟩ [0, 1] [0] = .ok [6859 / 16000] ∧
    fitPerceptron (1 / 10) [0] p ⟨1, [[-1], [1 / 2]]⟩ [0, 1] [0] ≠ .ok [6859 / 16000] ∧
    predictPerceptron false [6859 / 16000] ⟨1, [[-1], [1]]⟩ = .ok [(0 : ℚ), 1] := by decide +kernel

section C82

theorem softmaxOf_firstMax (l : List ℝ) (hl : l ≠ []) (p : Nat) : IsFirstMax (softmaxOf l) p ↔ IsFirstMax l p := by
  have hs := Analytic.sumExp_pos l hl
  have hm : ∀ a b : ℝ, Real.exp a / sumExp l ≤ Real.exp b / sumExp l ↔ a ≤ b := fun a b => by
    rw [div_le_div_iff_of_pos_right hs, Real.exp_le_exp]
  have he : ∀ a b : ℝ, Real.exp a / sumExp l = Real.exp b / sumExp l ↔ a = b := fun a b => by
    rw [div_left_inj' hs.ne', Real.exp_eq_exp]
  constructor
  · rintro ⟨v, hv, h⟩
    unfold softmaxOf at hv h
    rw [List.getElem?_map, Option.map_eq_some_iff] at hv
    obtain ⟨a, ha, rfl⟩ := hv
    refine ⟨a, ha, fun q w hq => ?_⟩
    have := h q _ (by rw [List.getElem?_map, hq]; rfl)
    rwa [hm, he] at this
  · rintro ⟨v, hv, h⟩
    refine ⟨Real.exp v / sumExp l, by unfold softmaxOf; rw [List.getElem?_map, hv]; rfl, fun q w hq => ?_⟩
    unfold softmaxOf at hq
    rw [List.getElem?_map, Option.map_eq_some_iff] at hq
    obtain ⟨a, ha, rfl⟩ := hq
    rw [hm, he]
    exact h q a ha

/-- C82: `SoftmaxRegression::predict` and `predict_prob` do not use the bias weights (the last row of the weights). -/
theorem C82_bias_ignored (W W' X : DMat ℝ) (hn : W.nrows = X.ncols + 1) (hn' : W'.nrows = X.ncols + 1) (hc : W.ncols = W'.ncols)
    (h : ∀ i < X.ncols, W.rows[i]? = W'.rows[i]?) :
    softmaxProb W X = softmaxProb W' X ∧ softmaxPredict W X = softmaxPredict W' X := by
  have ht : W.rows.take X.ncols = W'.rows.take X.ncols := by
    apply List.ext_getElem?
    intro i
    rw [List.getElem?_take, List.getElem?_take]
    split
    · exact h i ‹_›
    · rfl
  have hp : softmaxProb W X = softmaxProb W' X := by
    unfold softmaxProb softmaxBoundary
    rw [if_pos (by omega), if_pos (by omega), ht, hc]
  exact ⟨hp, by unfold softmaxPredict; rw [hp]⟩

/-- C82: `predict` throws `invalid_argument` for a single sample or a single class; otherwise it returns for every sample the
first class with the largest product of features and weights without bias, and the rows of `predict_prob` are positive and sum to
one. -/
theorem C82_predict (W X : DMat ℝ) (hW : W.WF) (hn : W.nrows = X.ncols + 1) (hr : X.rows ≠ []) (hc : 0 < W.ncols) :
    ((X.nrows = 1 ∨ W.ncols = 1) →
      softmaxPredict W X = .throw .invalidArgument ∧ softmaxProb W X = .throw .invalidArgument) ∧
    (¬ (X.nrows = 1 ∨ W.ncols = 1) → ∃ P ys, softmaxProb W X = .ok P ∧ softmaxPredict W X = .ok ys ∧ P.nrows = X.nrows ∧
      ys.length = X.nrows ∧ (∀ r ∈ P.rows, (∀ a ∈ r, 0 < a) ∧ r.sum = 1) ∧
      ∀ (i : Nat) (r : List ℝ) (k : Nat), X.rows[i]? = some r → ys[i]? = some k →
        IsFirstMax ((List.range W.ncols).map fun c => dotL r ((W.col c).take X.ncols)) k) := by
  have hcol : ∀ c < W.ncols, (DMat.mk W.ncols (W.rows.take X.ncols)).col c = (W.col c).take X.ncols := by
    intro c hcn
    have : ∀ L : List (List ℝ), (∀ r ∈ L, r.length = W.ncols) → L.filterMap (·[c]?) = L.map fun r => r.getD c 0 := by
      intro L hL
      induction L with
      | nil => rfl
      | cons r L ih =>
        have hlt : c < r.length := by rw [hL r List.mem_cons_self]; exact hcn
        rw [List.filterMap_cons, List.getElem?_eq_getElem hlt, List.map_cons, ih fun r hr => hL r (List.mem_cons_of_mem _ hr)]
        simp [List.getD_eq_getElem?_getD, hlt]
    unfold DMat.col
    rw [this _ hW, this _ fun r hr => hW r (List.mem_of_mem_take hr), List.map_take]
  let f : List ℝ → List ℝ := fun r => (List.range W.ncols).map fun c => dotL r ((W.col c).take X.ncols)
  have hf : ∀ r, f r ≠ [] := fun r h => by
    have := congrArg List.length h
    simp [f] at this
    omega
  have hb : softmaxBoundary W X = .ok ⟨W.ncols, X.rows.map f⟩ := by
    unfold softmaxBoundary mulMat
    rw [if_pos (by omega), if_pos (by rw [DMat.nrows, List.length_take]; unfold DMat.nrows at hn; omega)]
    congr 2
    apply List.map_congr_left
    intro r _
    unfold DMat.cols
    rw [List.map_map]
    apply List.map_congr_left
    intro c hcm
    rw [Function.comp_apply, hcol c (List.mem_range.mp hcm)]
  have hwf : (DMat.mk W.ncols (X.rows.map f)).WF := by
    intro r hr
    obtain ⟨x, -, rfl⟩ := List.mem_map.mp hr
    simp [f]
  have h29 := C29_softmax ⟨W.ncols, X.rows.map f⟩ hwf (by simpa using hr) hc
  simp only [DMat.nrows, List.length_map] at h29
  refine ⟨fun h => ?_, fun h => ?_⟩
  · have hp : softmaxProb W X = .throw .invalidArgument := by
      unfold softmaxProb
      rw [hb, Res.bind_ok, h29.1 h]
    exact ⟨by unfold softmaxPredict; rw [hp]; rfl, hp⟩
  · have hp : softmaxProb W X = .ok ⟨W.ncols, (X.rows.map f).map softmaxOf⟩ := by
      unfold softmaxProb
      rw [hb, Res.bind_ok, (h29.2 h).1]
    have hmax : ∀ r, ∃ k, maxCoeffIdx (softmaxOf (f r)) = .ok k ∧ IsFirstMax (f r) k := by
      intro r
      obtain ⟨k, hk, hk'⟩ := maxCoeffIdx_spec (softmaxOf (f r)) (by simpa [softmaxOf] using hf r)
      exact ⟨k, hk, (softmaxOf_firstMax _ (hf r) k).mp hk'⟩
    choose g hg hg' using hmax
    refine ⟨_, X.rows.map g, hp, ?_, by simp [DMat.nrows], by simp [DMat.nrows], ?_, ?_⟩
    · unfold softmaxPredict MatOps.argmax
      rw [hp, Res.bind_ok, if_pos rfl, List.map_map, mapRes_map]
      exact Analytic.mapRes_eq_map _ _ _ fun r _ => hg r
    · intro r hr
      obtain ⟨l, hl, rfl⟩ := List.mem_map.mp hr
      obtain ⟨x, -, rfl⟩ := List.mem_map.mp hl
      exact ⟨Analytic.softmaxOf_pos _, Analytic.softmaxOf_sum _ (hf x)⟩
    · intro i r k hi hk
      rw [List.getElem?_map, hi] at hk
      cases hk
      exact hg' r

/-- Example for C82: weights 1 and -1 for the two classes with the bias weights 9 and 0: one sample is an error, and of the two
samples -1 and 1 the first one gets class 1 although with bias its scores would be 8 and 1. -/
example : softmaxPredict ⟨2, [[1, -1], [9, 0]]⟩ ⟨1, [[-1]]⟩ = .throw .invalidArgument ∧
    ∃ ys, softmaxPredict ⟨2, [[1, -1], [9, 0]]⟩ ⟨1, [[-1], [1]]⟩ = .ok ys ∧ ys[0]? = some 1 := by
  refine ⟨((C82_predict ⟨2, [[1, -1], [9, 0]]⟩ ⟨1, [[-1]]⟩ (by decide) rfl (by simp) (by decide)).1 (Or.inl rfl)).1, ?_⟩
  obtain ⟨P, ys, -, h, -, hl, -, hk⟩ :=
    (C82_predict ⟨2, [[1, -1], [9, 0]]⟩ ⟨1, [[-1], [1]]⟩ (by decide) rfl (by simp) (by decide)).2 (by simp [DMat.nrows])
  refine ⟨ys, h, ?_⟩
  have h0 : 0 < ys.length := by rw [hl]; simp [DMat.nrows]
  rw [List.getElem?_eq_getElem h0]
  have h1 := hk 0 [-1] ys[0] rfl (List.getElem?_eq_getElem h0)
  have h2 : IsFirstMax ((List.range 2).map fun c => dotL [(-1 : ℝ)] (((⟨2, [[1, -1], [9, 0]]⟩ : DMat ℝ).col c).take 1)) 1 := by
    refine ⟨1, by simp [List.range_succ, DMat.col, dotL], fun q w hq => ?_⟩
    match q with
    | 0 =>
      simp [List.range_succ, DMat.col, dotL] at hq
      subst hq
      norm_num
    | 1 =>
      simp [List.range_succ, DMat.col, dotL] at hq
      subst hq
      norm_num
    | q + 2 => simp [List.range_succ] at hq
  rw [IsFirstMax.unique h1 h2]

end C82

end OpenML
