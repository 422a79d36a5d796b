import Verif.Lemmas.Perceptron

/-!
# Convergence of the perceptron (C97, C98)
-/

set_option linter.unusedSectionVars false

namespace OpenML

open Spec Loss SGD LinearFit Perceptron
open scoped BigOperators

section C97

variable {α : Type} [Field α] [LinearOrder α] [IsStrictOrderedRing α]

/-- C97: however many epochs are run and however the samples are shuffled, the learning rates of the epochs that change the
weights sum up to no more than a bound that depends on the data, the initial weights and the largest rate only. The optimizer is
`SGD` with the hinge loss of `Perceptron` (no penalty, one sample per batch, gradient sums start with zeros, no entry is clipped);
`u` separates the samples with a positive margin. -/
theorem C97_correction_budget (p : Params α) (hb : p.batchSize = 1) (eta : Nat → α) (hdec : ∀ i, p.decay i = .ok (eta i))
    (heta : ∀ i, 0 < eta i) (cap : α) (hcap : ∀ i, eta i ≤ cap) (X : DMat α) (hX : X.WF) (y : List α) (hy : y.length = X.nrows)
    (hperm : ∀ q, p.shuffle = some q → ∀ i, (q i).Perm (List.range X.nrows)) (init : List α) (hi : init.length = X.ncols)
    (hclip : ∀ e ∈ X.rows.zip y, ∀ x ∈ e.1, |x * e.2| ≤ 10 ^ 10) (u : List α) (margin radius len start : α) (hm : 0 < margin)
    (hsep : SeparatesBy (X.rows.zip y) u margin) (hrad : ∀ e ∈ X.rows.zip y, e.2 ^ 2 * pairing e.1 e.1 ≤ radius ^ 2)
    (hlen0 : 0 ≤ len) (hlen : pairing u u ≤ len ^ 2) (hstart0 : 0 ≤ start) (hstart : pairing init init ≤ start ^ 2)
    (n : Nat) (D : Nat → DMat α × List α) (st : Nat → List α) (L : Nat → α)
    (hr : IsRun ⟨hingeEvaluate 0 0, hingeGradient 0 0 (List.replicate X.ncols 0)⟩ id
      (sgdStep ⟨hingeEvaluate 0 0, hingeGradient 0 0 (List.replicate X.ncols 0)⟩ clipGrad vanillaUpdate) p (X.nrows / p.batchSize) X y
      init n D st L) :
    ∑ i ∈ (Finset.range n).filter (fun i => st (i + 1) ≠ st i), eta i ≤ correctionBudget len start radius margin cap := by
  obtain ⟨c, h1, h2, _, h4, h5⟩ := run X y u margin radius p eta init n D st L ⟨hX, hy, hclip, hsep, hrad⟩ hb hdec heta hperm hi hr
  have hterm : ∀ i, 0 ≤ (c i : α) * eta i := fun i => mul_nonneg (Nat.cast_nonneg _) (heta i).le
  have hS : ∑ i ∈ (Finset.range n).filter (fun i => st (i + 1) ≠ st i), eta i ≤ ∑ i ∈ Finset.range n, (c i : α) * eta i := by
    rw [Finset.sum_filter]
    refine Finset.sum_le_sum fun i hi => ?_
    split
    · rename_i hne
      have hc : c i ≠ 0 := fun hc => hne (h2 i (Finset.mem_range.mp hi) (h1 i (Finset.mem_range.mp hi) hc)).1
      have : (1 : α) ≤ c i := by exact_mod_cast Nat.one_le_iff_ne_zero.mpr hc
      nlinarith [heta i]
    · exact hterm i
  refine hS.trans (budget len start radius margin cap (dotL init u) (dotL (st n) u) (dotL (st n) (st n)) (dotL u u)
    (dotL init init) _ (∑ i ∈ Finset.range n, (c i : α) * eta i ^ 2) hlen0 hstart0 hm (Finset.sum_nonneg fun i _ => hterm i) ?_
    ((heta 0).le.trans (hcap 0)) hlen hstart (dotL_self_nonneg _) (dotL_self_nonneg _) (dotL_sq_le _ _) h4 h5 (dotL_sq_le _ _))
  rw [Finset.mul_sum]
  refine Finset.sum_le_sum fun i _ => ?_
  have := mul_le_mul_of_nonneg_left (hcap i) (hterm i)
  nlinarith

/-- C97: if the rates of the first `n` epochs exceed that bound, `n` is at most `num_iters_no_change` and the epochs suffice, then
`Perceptron::fit` publishes weights that classify every training sample strictly correctly. -/
theorem C97_separates (p : Params α) (hb : p.batchSize = 1) (eta : Nat → α) (hdec : ∀ i, p.decay i = .ok (eta i))
    (heta : ∀ i, 0 < eta i) (cap : α) (hcap : ∀ i, eta i ≤ cap) (htol : 0 < p.tol) (X : DMat α) (hX : X.WF) (y : List α)
    (hy : y.length = X.nrows) (hperm : ∀ q, p.shuffle = some q → ∀ i, (q i).Perm (List.range X.nrows)) (init : List α)
    (hi : init.length = X.ncols) (hclip : ∀ e ∈ X.rows.zip y, ∀ x ∈ e.1, |x * e.2| ≤ 10 ^ 10) (u : List α)
    (margin radius len start : α) (hm : 0 < margin)
    (hsep : SeparatesBy (X.rows.zip y) u margin) (hrad : ∀ e ∈ X.rows.zip y, e.2 ^ 2 * pairing e.1 e.1 ≤ radius ^ 2)
    (hlen0 : 0 ≤ len) (hlen : pairing u u ≤ len ^ 2) (hstart0 : 0 ≤ start) (hstart : pairing init init ≤ start ^ 2)
    (n : Nat) (hn : n ≤ p.noChange) (hmax : n + p.noChange ≤ p.maxIter)
    (hsum : correctionBudget len start radius margin cap < ∑ i ∈ Finset.range n, eta i) :
    ∃ w, fitPerceptron 0 (List.replicate X.ncols 0) p X y init = .ok w ∧ w.length = X.ncols ∧ Classifies (X.rows.zip y) w := by
  have hset : Setting X y u margin radius := ⟨hX, hy, hclip, hsep, hrad⟩
  have hb0 : p.batchSize ≠ 0 := by rw [hb]; exact one_ne_zero
  -- after `n` epochs all samples are classified, in any run
  have hmain : ∀ N D st L, n ≤ N → IsRun (plain X.ncols) id (sgdStep (plain X.ncols) clipGrad vanillaUpdate) p
      (X.nrows / p.batchSize) X y init N D st L →
      (∃ j < n, Classifies (X.rows.zip y) (st j)) ∧ (∀ i < N, Classifies (X.rows.zip y) (st i) → st (i + 1) = st i ∧ L i = 0) ∧
      ∀ i ≤ N, (st i).length = X.ncols := by
    intro N D st L hN hr
    obtain ⟨c, h1, h2, h3, _⟩ := run X y u margin radius p eta init N D st L hset hb hdec heta hperm hi hr
    refine ⟨?_, h2, h3⟩
    by_contra hno
    have hr' := isRun_mono _ _ _ p _ X y init hN hr
    obtain ⟨c, h1, _, _, h4, h5⟩ := run X y u margin radius p eta init n D st L hset hb hdec heta hperm hi hr'
    have hterm : ∀ i, 0 ≤ (c i : α) * eta i := fun i => mul_nonneg (Nat.cast_nonneg _) (heta i).le
    have hS : ∑ i ∈ Finset.range n, eta i ≤ ∑ i ∈ Finset.range n, (c i : α) * eta i := by
      refine Finset.sum_le_sum fun i hi => ?_
      have hi := Finset.mem_range.mp hi
      have hc : c i ≠ 0 := fun hc => hno ⟨i, hi, h1 i hi hc⟩
      have : (1 : α) ≤ c i := by exact_mod_cast Nat.one_le_iff_ne_zero.mpr hc
      nlinarith [heta i]
    have := budget len start radius margin cap (dotL init u) (dotL (st n) u) (dotL (st n) (st n)) (dotL u u)
      (dotL init init) _ (∑ i ∈ Finset.range n, (c i : α) * eta i ^ 2) hlen0 hstart0 hm (Finset.sum_nonneg fun i _ => hterm i) (by
        rw [Finset.mul_sum]
        refine Finset.sum_le_sum fun i _ => ?_
        have := mul_le_mul_of_nonneg_left (hcap i) (hterm i)
        nlinarith)
      ((heta 0).le.trans (hcap 0)) hlen hstart (dotL_self_nonneg _) (dotL_self_nonneg _) (dotL_sq_le _ _) h4 h5 (dotL_sq_le _ _)
    exact absurd hsum (not_lt.mpr (hS.trans this))
  have hkeep : ∀ N D st L, n ≤ N → IsRun (plain X.ncols) id (sgdStep (plain X.ncols) clipGrad vanillaUpdate) p
      (X.nrows / p.batchSize) X y init N D st L →
      ∃ j < n, ∀ i, j ≤ i → i ≤ N → Classifies (X.rows.zip y) (st i) := by
    intro N D st L hN hr
    obtain ⟨⟨j, hj, hcl⟩, hstay, _⟩ := hmain N D st L hN hr
    refine ⟨j, hj, fun i hji => ?_⟩
    induction i, hji using Nat.le_induction with
    | base => exact fun _ => hcl
    | succ i hji ih =>
      intro hiN
      rw [(hstay i (by omega) (ih (by omega))).1]
      exact ih (by omega)
  -- all epochs can be run
  have htotal : (∃ w, fitPerceptron 0 (List.replicate X.ncols 0) p X y init = .ok w) ∨
      fitPerceptron 0 (List.replicate X.ncols 0) p X y init = .throw .runtimeError :=
    (sgd_total (plain X.ncols) X.ncols
      (fun X' y' w hX' hy' hd hw => by
        obtain ⟨g, hg, hgl⟩ := hingeGradient_total 0 0 (List.replicate X.ncols 0) X' hX' y' w hy' (hw.trans hd.symm) (by simp [hd])
        exact ⟨g, hg, hgl.trans hd⟩)
      (fun X' y' w _ hy' hd hw => hingeEvaluate_total 0 0 X' y' w hy' (hw.trans hd.symm)) p hb0 (fun i => ⟨_, hdec i⟩) X hX y hy rfl
      hperm init hi).1
  have hpub : ∃ w, fitPerceptron 0 (List.replicate X.ncols 0) p X y init = .ok w := by
    refine htotal.resolve_right fun hthrow => ?_
    have hrun : ∃ D st L, IsRun (plain X.ncols) id (sgdStep (plain X.ncols) clipGrad vanillaUpdate) p
        (X.nrows / p.batchSize) X y init p.maxIter D st L := by
      refine exists_run_of_total _ id _ p _ (Shape X.ncols X.nrows) (fun w => w.length = X.ncols) (shape_shuffle _ _ p.shuffle hperm)
        (fun i => ⟨_, hdec i⟩) ?_ ?_ X y init ⟨rfl, hX, hy, rfl⟩ hi _
      · rintro X' y' ⟨g1, g2, g3, g4⟩
        rw [hb, Nat.div_one, Nat.mul_one, g3, ← g4]
        exact ⟨le_refl _, le_refl _⟩
      · rintro X' y' ⟨g1, g2, g3, g4⟩ lr j hj w hw
        rw [hb, Nat.div_one, ← g4] at hj
        have hjy : j < y'.length := by rw [g3]; exact hj
        have hwf : (⟨X'.ncols, [X'.rows[j]'hj]⟩ : DMat α).WF := by
          intro r hr
          rw [List.mem_singleton.mp hr]
          exact g2 _ (List.getElem_mem hj)
        rw [hb, batch_one _ _ hj, batch_one _ _ hjy]
        obtain ⟨g, hg, hgl⟩ := hingeGradient_total 0 0 (List.replicate X.ncols 0) ⟨X'.ncols, [X'.rows[j]'hj]⟩ hwf [y'[j]] w rfl
          (hw.trans g1.symm) (by simp [g1])
        obtain ⟨v, hv, hvl⟩ := vanilla_ok w (clipGrad g) lr (by rw [clipGrad_length, hgl, hw, g1])
        refine ⟨v, ?_, hvl.trans hw, hingeEvaluate_total 0 0 _ _ _ rfl (hvl.trans (hw.trans g1.symm))⟩
        rw [sgdStep]
        dsimp only
        rw [hg, Res.bind_ok, hv]
    obtain ⟨D, st, L, hr⟩ := hrun
    have hnM : n ≤ p.maxIter := by omega
    obtain ⟨j, hj, hcl⟩ := hkeep _ D st L hnM hr
    have hzero : ∀ i, j ≤ i → i < p.maxIter → L i = 0 := fun i hji hiM =>
      ((hmain _ D st L hnM hr).2.1 i hiM (hcl i hji hiM.le)).2
    have hst : Stalled (p.tol * (p.batchSize : α)) L p.noChange (j + p.noChange) := by
      intro i hile hlt
      refine ⟨j, by omega, ?_⟩
      rw [hzero j (le_refl _) (by omega), hzero i (by omega) (by omega), hb]
      simpa using htol
    rcases firstStall_or (p.tol * (p.batchSize : α)) L p.noChange p.maxIter with ⟨i, hi', hs⟩ | hs
    · have := (C47_publishes_iff (plain X.ncols) id (sgdStep (plain X.ncols) clipGrad vanillaUpdate) p hb0 X y init
        (id (st (i + 1)))).mpr ⟨i, hi', D, st, L, isRun_mono _ _ _ p _ X y init (by omega) hr, hs, rfl⟩
      rw [fitPerceptron, sgd, this] at hthrow
      cases hthrow
    · exact hs _ (by omega) hst
  obtain ⟨w, hw⟩ := hpub
  refine ⟨w, hw, ?_⟩
  obtain ⟨i, hiM, D, st, L, hr, hs, rfl⟩ := (C47_publishes_iff (plain X.ncols) id (sgdStep (plain X.ncols) clipGrad vanillaUpdate)
    p hb0 X y init w).mp hw
  have hin : p.noChange ≤ i := by
    by_contra hlt
    obtain ⟨j, hj, _⟩ := hs.1 0 (by omega) (by omega)
    omega
  obtain ⟨j, hj, hcl⟩ := hkeep _ D st L (by omega) hr
  exact ⟨(hmain _ D st L (by omega) hr).2.2 _ (le_refl _), hcl _ (by omega) (le_refl _)⟩

/-- C97: `predict` of weights that classify all training samples returns 1 for the samples with positive label and 0 for the
others. -/
theorem C97_predict (X : DMat α) (y : List α) (hy : y.length = X.nrows) (w : List α) (hw : w.length = X.ncols)
    (h : Classifies (X.rows.zip y) w) : predictPerceptron false w X = .ok (y.map fun a => if 0 < a then 1 else 0) := by
  rw [predictPerceptron, predictLabel, if_neg (by simp), mulVec_ok _ _ hw, Res.bind_ok, List.map_map]
  congr 1
  have hl : X.rows.length = y.length := hy.symm
  refine List.ext_getElem (by simp [hl]) fun j h1 h2 => ?_
  rw [List.getElem_map, List.getElem_map]
  have hjr : j < X.rows.length := by simpa using h1
  have hjy : j < y.length := by simpa using h2
  have hz : (X.rows[j], y[j]) ∈ X.rows.zip y := by
    rw [← List.getElem_zip (h := by simp [List.length_zip]; omega)]
    exact List.getElem_mem _
  have hpos : 0 < y[j] * dotL X.rows[j] w := h _ hz
  simp only [Function.comp_apply]
  by_cases hyp : 0 < y[j]
  · rw [if_pos hyp, if_pos ((mul_pos_iff_of_pos_left hyp).mp hpos)]
  · rw [if_neg hyp, if_neg]
    exact fun hd => absurd hpos (not_lt.mpr (mul_nonpos_of_nonpos_of_nonneg (not_lt.mp hyp) (le_of_lt hd)))

/-- C97: `predict` without intercept returns 1 for the samples with positive score and 0 for the others, also for score zero. -/
theorem C97_threshold (X : DMat α) (w : List α) (hw : w.length = X.ncols) :
    ∃ ys, predictPerceptron false w X = .ok ys ∧ ys.length = X.nrows ∧
      ∀ (i : Nat) (r : List α), X.rows[i]? = some r →
        (0 < pairing r w → ys[i]? = some 1) ∧ (pairing r w ≤ 0 → ys[i]? = some 0) := by
  refine ⟨X.rows.map fun r => if 0 < pairing r w then 1 else 0, ?_, by simp [DMat.nrows], fun i r hr => ?_⟩
  · rw [predictPerceptron, predictLabel, if_neg (by simp), mulVec_ok _ _ hw, Res.bind_ok, List.map_map]
    rfl
  · rw [List.getElem?_map, hr]
    exact ⟨fun h => by rw [Option.map_some, if_pos h], fun h => by rw [Option.map_some, if_neg (not_lt.mpr h)]⟩

/-- C97: with the decay policy of `Perceptron` (`StepDecay(alpha)` halves the rate every ten epochs) and its tolerance, stopping
rule and number of epochs: if the bound is below `n * alpha` for an `n` that is at most nine and at most `num_iters_no_change`,
then the published weights classify every training sample strictly correctly. -/
theorem C97_perceptron (rate : α) (hrate : 0 < rate) (maxIter noChange : Nat) (tol : α) (htol : 0 < tol)
    (shuffle : Option (Nat → List Nat)) (X : DMat α) (hX : X.WF) (y : List α)
    (hy : y.length = X.nrows) (hperm : ∀ q, shuffle = some q → ∀ i, (q i).Perm (List.range X.nrows)) (init : List α)
    (hi : init.length = X.ncols) (hclip : ∀ e ∈ X.rows.zip y, ∀ x ∈ e.1, |x * e.2| ≤ 10 ^ 10) (u : List α)
    (margin radius len start : α) (hm : 0 < margin)
    (hsep : SeparatesBy (X.rows.zip y) u margin) (hrad : ∀ e ∈ X.rows.zip y, e.2 ^ 2 * pairing e.1 e.1 ≤ radius ^ 2)
    (hlen0 : 0 ≤ len) (hlen : pairing u u ≤ len ^ 2) (hstart0 : 0 ≤ start) (hstart : pairing init init ≤ start ^ 2)
    (n : Nat) (h9 : n ≤ 9) (hn : n ≤ noChange) (hmax : n + noChange ≤ maxIter)
    (hsum : correctionBudget len start radius margin rate < (n : α) * rate) :
    ∃ w, fitPerceptron 0 (List.replicate X.ncols 0) ⟨maxIter, 1, noChange, tol, stepDecay rate (1 / 2) 10, shuffle⟩ X y init = .ok w ∧
      w.length = X.ncols ∧ Classifies (X.rows.zip y) w := by
  refine C97_separates ⟨maxIter, 1, noChange, tol, stepDecay rate (1 / 2) 10, shuffle⟩ rfl
    (fun i => rate * (1 / 2) ^ ((1 + i) / 10)) (fun i => rfl) (fun i => by positivity) rate (fun i => ?_) htol X hX y hy hperm init hi
    hclip u margin radius len start hm hsep hrad hlen0 hlen hstart0 hstart n hn hmax ?_
  · exact mul_le_of_le_one_right hrate.le (pow_le_one₀ (by norm_num) (by norm_num))
  · have : ∑ i ∈ Finset.range n, rate * (1 / 2) ^ ((1 + i) / 10) = (n : α) * rate := by
      rw [Finset.sum_congr rfl (g := fun _ => rate)]
      · simp
      · intro i hi
        have := Finset.mem_range.mp hi
        rw [Nat.div_eq_of_lt (by omega), pow_zero, mul_one]
    rw [this]
    exact hsum

end C97

/-- Example for C97: four samples on the diagonal and off it, separated by `(1, 1)`; the initial weights misclassify all. -/
example : ∃ w, fitPerceptron (0 : ℚ) (List.replicate 2 0) ⟨100, 1, 9, 1 / 1000, stepDecay 1 (1 / 2) 10, none⟩
    ⟨2, [[1, 1], [2, 1], [-1, -1], [-1, -2]]⟩ [1, 1, -1, -1] [-1 / 4, -1 / 4] = .ok w ∧
      w.length = 2 ∧ Classifies [([1, 1], 1), ([2, 1], 1), ([-1, -1], -1), ([-1, -2], -1)] w :=
  C97_perceptron 1 (by norm_num) 100 9 (1 / 1000) (by norm_num) none ⟨2, [[1, 1], [2, 1], [-1, -1], [-1, -2]]⟩
    (by decide) [1, 1, -1, -1] rfl (by simp) [-1 / 4, -1 / 4] rfl (by decide +kernel) [1, 1] 2 (9 / 4) (3 / 2) (2 / 5) (by norm_num)
    (by unfold SeparatesBy; decide +kernel) (by decide +kernel) (by norm_num) (by decide +kernel) (by norm_num) (by decide +kernel) 9
    (by norm_num) (by norm_num) (by norm_num) (by unfold correctionBudget; norm_num)

/-- Example for `C97_predict`. -/
example : predictPerceptron false [(1 : ℚ), 1] ⟨2, [[1, 1], [2, 1], [-1, -1], [-1, -2]]⟩ = .ok [1, 1, 0, 0] :=
  (C97_predict ⟨2, [[1, 1], [2, 1], [-1, -1], [-1, -2]]⟩ [1, 1, -1, -1] rfl [1, 1] rfl (by unfold Classifies; decide +kernel)).trans
    (by decide +kernel)

/-- Example for `C97_threshold`: the second sample has score zero. -/
example : ∃ ys, predictPerceptron false [(1 : ℚ), -1] ⟨2, [[2, 1], [1, 1], [0, 1]]⟩ = .ok ys ∧ ys = [1, 0, 0] := by
  refine ⟨_, rfl, ?_⟩
  decide +kernel

section C98

variable {α : Type} [Field α] [LinearOrder α] [IsStrictOrderedRing α]

/-- C98: whatever the number of epochs, the batch size, the stopping rule, the tolerance and the shuffling, `Perceptron` without
penalty moves the weight of feature `j` by at most 19 times the base rate times the sum of the absolute values of that feature,
each scaled by its label, because the rate is halved every ten epochs. -/
theorem C98_drift (rate : α) (hrate : 0 ≤ rate) (p : Params α) (hb : p.batchSize ≠ 0) (hdec : p.decay = stepDecay rate (1 / 2) 10)
    (X : DMat α) (hX : X.WF) (y : List α) (hy : y.length = X.nrows)
    (hperm : ∀ q, p.shuffle = some q → ∀ i, (q i).Perm (List.range X.nrows)) (init : List α) (hi : init.length = X.ncols)
    (w : List α) (h : fitPerceptron 0 (List.replicate X.ncols 0) p X y init = .ok w) :
    w.length = X.ncols ∧ ∀ j, |w.getD j 0 - init.getD j 0| ≤ 19 * rate * scaledMass (X.rows.zip y) j := by
  obtain ⟨i, _, D, st, L, hr, _, rfl⟩ := (C47_publishes_iff (plain X.ncols) id (sgdStep (plain X.ncols) clipGrad vanillaUpdate)
    p hb X y init w).mp h
  have hd := run_drift X hX y hy p (fun i => rate * (1 / 2) ^ ((1 + i) / 10)) (fun i => by positivity)
    (fun i => by rw [hdec]; rfl) hperm _ init hi (i + 1) D st L hr
  refine ⟨(hd 0).1, fun j => (hd j).2.trans (mul_le_mul_of_nonneg_right ?_ (mass_nonneg _ _))⟩
  rw [← Finset.mul_sum]
  have := mul_le_mul_of_nonneg_left (rates_lt (α := α) (i + 1)).le hrate
  linarith

/-- C98: hence a sample whose initial score is on the wrong side by at least the sum over the features of that bound times the
absolute value of the feature is never classified correctly. -/
theorem C98_stuck (rate : α) (hrate : 0 ≤ rate) (p : Params α) (hb : p.batchSize ≠ 0) (hdec : p.decay = stepDecay rate (1 / 2) 10)
    (X : DMat α) (hX : X.WF) (y : List α) (hy : y.length = X.nrows)
    (hperm : ∀ q, p.shuffle = some q → ∀ i, (q i).Perm (List.range X.nrows)) (init : List α) (hi : init.length = X.ncols)
    (w : List α) (h : fitPerceptron 0 (List.replicate X.ncols 0) p X y init = .ok w) (x : List α) (hx : x.length = X.ncols) (a : α)
    (hwrong : a * pairing x init + |a| * ∑ j ∈ Finset.range X.ncols, |x.getD j 0| * (19 * rate * scaledMass (X.rows.zip y) j) ≤ 0) :
    ¬ 0 < a * pairing x w := by
  obtain ⟨hl, hdr⟩ := C98_drift rate hrate p hb hdec X hX y hy hperm init hi w h
  have hsum : ∀ v : List α, v.length = X.ncols → pairing x v = ∑ j ∈ Finset.range X.ncols, x.getD j 0 * v.getD j 0 := by
    intro v hv
    have hlen : (List.zipWith (· * ·) x v).length = X.ncols := by rw [List.length_zipWith, hx, hv, Nat.min_self]
    rw [pairing, sum_getD, hlen]
    refine Finset.sum_congr rfl fun j _ => ?_
    exact Perceptron.getD_zipWith _ (by simp) x v (hx.trans hv.symm) j
  have hdiff : |pairing x w - pairing x init| ≤ ∑ j ∈ Finset.range X.ncols, |x.getD j 0| * (19 * rate * scaledMass (X.rows.zip y) j) := by
    rw [hsum w hl, hsum init hi, ← Finset.sum_sub_distrib]
    refine (Finset.abs_sum_le_sum_abs _ _).trans (Finset.sum_le_sum fun j _ => ?_)
    rw [← mul_sub, abs_mul]
    exact mul_le_mul_of_nonneg_left (hdr j) (abs_nonneg _)
  have h1 : a * (pairing x w - pairing x init) ≤ |a| * |pairing x w - pairing x init| := by
    rw [← abs_mul]; exact le_abs_self _
  have h2 := mul_le_mul_of_nonneg_left hdiff (abs_nonneg a)
  rw [not_lt]
  linarith

end C98

/-- Example for C98: one sample of one feature with the default rate 0.001, initial weight -1/2. The data is separable, the call
publishes weights, and the sample stays on the wrong side. -/
example : fitPerceptron (0 : ℚ) (List.replicate 1 0) ⟨2000, 1, 5, 1 / 10000, stepDecay (1 / 1000) (1 / 2) 10, none⟩
    ⟨1, [[1]]⟩ [1] [-1 / 2] = .ok [-4819375 / 10 ^ 7] ∧ Classifies [([(1 : ℚ)], 1)] [1] ∧ ¬ 0 < (1 : ℚ) * pairing [1] [-4819375 / 10 ^ 7] := by
  have hfit : fitPerceptron (0 : ℚ) (List.replicate 1 0) ⟨2000, 1, 5, 1 / 10000, stepDecay (1 / 1000) (1 / 2) 10, none⟩
    ⟨1, [[1]]⟩ [1] [-1 / 2] = .ok [-4819375 / 10 ^ 7] := by decide +kernel
  exact ⟨hfit, by unfold Classifies; decide +kernel, C98_stuck (1 / 1000) (by norm_num) _ one_ne_zero rfl ⟨1, [[1]]⟩ (by decide) [1] rfl
    (by simp) [-1 / 2] rfl _ hfit [1] rfl 1 (by decide +kernel)⟩

end OpenML
