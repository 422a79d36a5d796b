import Verif.Lemmas.Drift
import Verif.Lemmas.SoftmaxLoss
import Mathlib.Tactic.NormNum.BigOperators
import Mathlib.Data.Rat.Defs

/-!
# How far training can move the weights (C154)
-/

namespace OpenML

open Spec SGD Drift
open scoped BigOperators

section
variable {α : Type} [Field α] [LinearOrder α] [IsStrictOrderedRing α]

/-- **C154.** Whatever the loss and the data, no weight published by `SGD` is further from its initial value than the clipping bound
times the sum of the learning rates over all batches of all epochs, times a factor of the update policy. -/
theorem C154_sgd (loss : LossFn α (List α)) (update : List α → List α → α → Res (List α)) (c : α) (hu : Policy update c) (p : Params α)
    (hb : p.batchSize ≠ 0) (eta : Nat → α) (he : ∀ i, p.decay i = .ok (eta i)) (X : DMat α) (y w w' : List α)
    (h : sgd loss clipGrad update p X y w = .ok w') :
    ∃ K, 0 < K ∧ K ≤ p.maxIter ∧ Within (c * 10 ^ 10 * ((X.nrows / p.batchSize : Nat) : α) * ∑ i ∈ Finset.range K, |eta i|) w w' := by
  refine published loss id (sgdStep loss clipGrad update) Within (fun _ => True) (fun _ => True) (c * 10 ^ 10) within_refl within_trans ?_ p hb
    eta he (fun _ => trivial) X y w trivial w' h
  intro s Xb yb lr j s' _ _ hs
  unfold sgdStep at hs
  simp only [Res.bind_eq_ok] at hs
  obtain ⟨g, _, hv⟩ := hs
  exact ⟨trivial, policy_within update c hu s (clipGrad g) s' lr (10 ^ 10) (clipGrad_abs g) hv⟩

/-- **C154.** The same for `SAG`, whose direction is a sum of one gradient per batch divided by the batch size: the bound is multiplied
by the number of batches and divided by the batch size. -/
theorem C154_sag (loss : LossFn α (List α)) (update : List α → List α → α → Res (List α)) (c : α) (hu : Policy update c) (p : Params α)
    (hb : p.batchSize ≠ 0) (eta : Nat → α) (he : ∀ i, p.decay i = .ok (eta i)) (X : DMat α) (y w w' : List α)
    (h : sag loss update p X y w = .ok w') :
    ∃ K, 0 < K ∧ K ≤ p.maxIter ∧ Within (c * (((X.nrows / p.batchSize : Nat) : α) * 10 ^ 10 / (p.batchSize : α)) *
      ((X.nrows / p.batchSize : Nat) : α) * ∑ i ∈ Finset.range K, |eta i|) w w' := by
  set k := X.nrows / p.batchSize with hk
  set s₀ : SagState α := { w := w, history := List.replicate k (List.replicate X.ncols 0), avg := List.replicate X.ncols 0 } with hs₀
  have hb0 : (0 : α) < p.batchSize := by exact_mod_cast Nat.pos_of_ne_zero hb
  refine published loss SagState.w (sagStep loss update p.batchSize) Within
    (fun s => Reach (sagStep loss update p.batchSize) s₀ s ∧ ∀ q ∈ s.history, ∀ j, |q.getD j 0| ≤ 10 ^ 10) (fun _ => True)
    (c * ((k : α) * 10 ^ 10 / (p.batchSize : α))) within_refl within_trans ?_ p hb eta he (fun _ => trivial) X y s₀ ⟨Reach.start, ?_⟩ w' h
  · rintro s Xb yb lr j s' _ ⟨hs, hq⟩ hst
    have hr : Reach (sagStep loss update p.batchSize) s₀ s' := Reach.step _ _ _ _ hs hst
    obtain ⟨h1, h2, h3, h4⟩ := C49_sag_direction loss update p.batchSize X.ncols k w s' hr
    unfold sagStep at hst
    simp only [Res.bind_eq_ok, Res.ok.injEq] at hst
    obtain ⟨g, _, old, _, diff, _, avg, _, v, hv, rfl⟩ := hst
    dsimp only at h1 h2 h3 h4 ⊢
    have hq' : ∀ q ∈ s.history.set j (clipGrad g), ∀ j, |q.getD j 0| ≤ 10 ^ 10 := by
      intro q hqm
      rcases List.mem_or_eq_of_mem_set hqm with hm | rfl
      · exact hq q hm
      · exact clipGrad_abs g
    refine ⟨⟨hr, hq'⟩, policy_within update c hu s.w avg v lr _ (fun i => ?_) hv⟩
    by_cases hi : i < X.ncols
    · rw [h4 i hi, abs_div, abs_of_pos hb0]
      refine div_le_div_of_nonneg_right ?_ hb0.le
      rw [← h2]
      clear h1 h2 h3 h4 hr
      generalize s.history.set j (clipGrad g) = l at hq' ⊢
      induction l with
      | nil => simp
      | cons q l ih =>
        have h5 := ih fun r hr => hq' r (List.mem_cons_of_mem _ hr)
        have h6 := hq' q List.mem_cons_self i
        rw [List.map_cons, List.sum_cons, List.length_cons, Nat.cast_succ, add_mul, one_mul]
        exact (abs_add_le _ _).trans (by linarith)
    · have : avg.getD i 0 = 0 := by simp [List.getD_eq_getElem?_getD, List.getElem?_eq_none (by omega : avg.length ≤ i)]
      rw [this, abs_zero]
      positivity
  · intro q hqm j
    rw [List.eq_of_mem_replicate hqm, List.getD_eq_getElem?_getD, List.getElem?_replicate]
    split <;> simp

/-- **C154.** For `TruncatedGradient` with nonnegative penalties the magnitude of a weight grows by at most the same amount as with
`SGD`. -/
theorem C154_truncated (loss : LossFn α (List α)) (update : List α → List α → α → Res (List α)) (c : α) (hu : Policy update c)
    (l1Ratio penalty : α) (p : Params α) (hb : p.batchSize ≠ 0) (eta : Nat → α) (he : ∀ i, p.decay i = .ok (eta i))
    (hpos : ∀ i, 0 ≤ l1Ratio * eta i * penalty) (X : DMat α) (y w w' : List α) (h : tg loss update l1Ratio penalty p X y w = .ok w') :
    ∃ K, 0 < K ∧ K ≤ p.maxIter ∧ Grown (c * 10 ^ 10 * ((X.nrows / p.batchSize : Nat) : α) * ∑ i ∈ Finset.range K, |eta i|) w w' := by
  refine published loss TgState.w (tgStep loss update l1Ratio penalty) Grown
    (fun s => s.cum = List.replicate X.ncols 0 ∧ 0 ≤ s.maxCum) (fun lr => 0 ≤ l1Ratio * lr * penalty) (c * 10 ^ 10) grown_refl grown_trans
    ?_ p hb eta he hpos X y { w := w, cum := List.replicate X.ncols 0, maxCum := 0 } ⟨rfl, le_refl _⟩ w' h
  rintro s Xb yb lr j s' hlr ⟨hc, hm⟩ hst
  unfold tgStep at hst
  simp only [Res.bind_eq_ok, Res.ok.injEq] at hst
  obtain ⟨g, _, v, hv, t, ht, rfl⟩ := hst
  have hu0 : 0 ≤ s.maxCum + l1Ratio * lr * penalty := add_nonneg hm hlr
  have hlen : v.length ≤ X.ncols := by
    by_contra hcon
    unfold truncate at ht
    rw [hc, List.length_replicate, if_neg hcon] at ht
    cases ht
  rw [hc, C50_truncate v X.ncols hlen _ hu0, Res.ok.injEq] at ht
  subst ht
  refine ⟨⟨rfl, hu0⟩, ?_⟩
  have h1 := grown_of_within _ _ _ (policy_within update c hu s.w (clipGrad g) v lr (10 ^ 10) (clipGrad_abs g) hv)
  refine ⟨by rw [List.length_map, h1.1], fun i => le_trans ?_ (h1.2 i)⟩
  dsimp only
  rw [List.getD_eq_getElem?_getD, List.getElem?_map, List.getD_eq_getElem?_getD]
  cases v[i]? with
  | none => simp
  | some a => exact (C50_soft_threshold _ a hu0).2.2.2

end

/-- **C154.** The same for `SGD` with a matrix of weights and the softmax loss. -/
theorem C154_softmax (lambda : ℝ) (p : Params ℝ) (hb : p.batchSize ≠ 0) (eta : Nat → ℝ) (he : ∀ i, p.decay i = .ok (eta i)) (X : DMat ℝ)
    (y : List ℝ) (W W' : DMat ℝ) (hW : W.WF)
    (h : sgd ⟨Loss.softmaxEvaluate lambda, Loss.softmaxGradient lambda⟩ clipGradMat vanillaUpdateMat p X y W = .ok W') :
    ∃ K, 0 < K ∧ K ≤ p.maxIter ∧
      WithinMat (10 ^ 10 * ((X.nrows / p.batchSize : Nat) : ℝ) * ∑ i ∈ Finset.range K, |eta i|) W W' := by
  refine published _ id _ WithinMat DMat.WF (fun _ => True) (10 ^ 10) withinMat_refl withinMat_trans ?_ p hb
    eta he (fun _ => trivial) X y W hW W' h
  intro s Xb yb lr j s' _ hs hst
  unfold sgdStep at hst
  simp only [Res.bind_eq_ok] at hst
  obtain ⟨g, hg, hv⟩ := hst
  unfold Loss.softmaxGradient at hg
  simp only [Res.bind_eq_ok, Res.ok.injEq] at hg
  obtain ⟨xw, hxw, e, _, m, _, rfl⟩ := hg
  have hd : Xb.ncols = s.rows.length := by
    unfold Loss.mulMat at hxw
    split at hxw <;> rename_i hc
    · exact hc
    · cases hxw
  have hsh : ∀ i, (s.rows.getD i []).length = ((List.zipWith (List.zipWith fun a b => a / (Xb.nrows : ℝ) + b / (Xb.nrows : ℝ) * lambda)
      (Xb.cols.map fun c => (DMat.cols ⟨s.ncols, m⟩).map fun d => Loss.dotL c d) s.rows).getD i []).length := by
    intro i
    by_cases hi : i < s.rows.length
    · have hi' : i < Xb.ncols := hd ▸ hi
      have := hs _ (List.getElem_mem hi)
      simp [List.getD_eq_getElem?_getD, List.getElem?_zipWith, hi, hi', this, DMat.cols]
    · simp [List.getD_eq_getElem?_getD, List.getElem?_zipWith, List.getElem?_eq_none (not_lt.mp hi)]
  have hw := vanillaMat_within s _ s' lr hsh hv
  refine ⟨?_, hw⟩
  intro r hr
  obtain ⟨i, hi, rfl⟩ := List.getElem_of_mem hr
  have h1 := (hw.2.2 i).1
  have hi' : i < s.rows.length := by rw [← hw.2.1]; exact hi
  simp only [List.getD_eq_getElem?_getD, List.getElem?_eq_getElem hi, List.getElem?_eq_getElem hi', Option.getD_some] at h1
  rw [h1, hw.1]
  exact hs _ (List.getElem_mem hi')

/-- Example beside `C154_sgd`: least squares with one huge sample. The gradient is -10^20, but one step with rate 1/10 moves the weight
by exactly 10^9, the bound for `K = 1`. -/
example : sgd ⟨Loss.mseEvaluate (0 : ℚ), Loss.mseGradient 0⟩ clipGrad vanillaUpdate
      { maxIter := 1, batchSize := 1, noChange := 0, tol := 1 / 100, decay := fun _ => .ok (1 / 10), shuffle := none }
      ⟨1, [[10 ^ 10]]⟩ [10 ^ 10] [0] = .ok [10 ^ 9] ∧
    Policy (vanillaUpdate (α := ℚ)) 1 ∧ (1 : ℚ) * 10 ^ 10 * ((1 / 1 : Nat) : ℚ) * ∑ i ∈ Finset.range 1, |(1 : ℚ) / 10| = 10 ^ 9 := by
  refine ⟨by decide +kernel, Or.inl ⟨rfl, rfl⟩, by norm_num⟩

/-- Beside `C154_sag` and `C154_truncated`: the same step with both optimizers. -/
example : sag ⟨Loss.mseEvaluate (0 : ℚ), Loss.mseGradient 0⟩ vanillaUpdate
      { maxIter := 1, batchSize := 1, noChange := 0, tol := 1 / 100, decay := fun _ => .ok (1 / 10), shuffle := none }
      ⟨1, [[10 ^ 10]]⟩ [10 ^ 10] [0] = .ok [10 ^ 9] ∧
    tg ⟨Loss.mseEvaluate (0 : ℚ), Loss.mseGradient 0⟩ vanillaUpdate (1 / 2) 1
      { maxIter := 1, batchSize := 1, noChange := 0, tol := 1 / 100, decay := fun _ => .ok (1 / 10), shuffle := none }
      ⟨1, [[10 ^ 10]]⟩ [10 ^ 10] [0] = .ok [10 ^ 9 - 1 / 20] := by
  refine ⟨by decide +kernel, by decide +kernel⟩

/-- Beside `C154_softmax`: one sample with a huge feature. Both entries of the gradient are 5 * 10^10 in magnitude; the weights move by
10^10, the bound. -/
example : (⟨2, [[0, 0]]⟩ : DMat ℝ).WF ∧ sgd ⟨Loss.softmaxEvaluate 0, Loss.softmaxGradient 0⟩ clipGradMat vanillaUpdateMat
      { maxIter := 1, batchSize := 1, noChange := 0, tol := 1 / 100, decay := fun _ => .ok 1, shuffle := none }
      (⟨1, [[10 ^ 11]]⟩ : DMat ℝ) [0] ⟨2, [[0, 0]]⟩ = .ok ⟨2, [[10 ^ 10, -10 ^ 10]]⟩ := by
  refine ⟨by intro r hr; simp at hr; subst hr; rfl, ?_⟩
  have hX : (⟨1, [[10 ^ 11]]⟩ : DMat ℝ).WF := by intro r hr; simp at hr; subst hr; rfl
  have h1 := Loss.softmaxGradient_eq (k := 2) (by norm_num) 0 ⟨1, [[10 ^ 11]]⟩ hX (by simp) [0] rfl fun _ _ => 0
  have h2 := Loss.softmaxEvaluate_eq (k := 2) (by norm_num) 0 ⟨1, [[10 ^ 11]]⟩ hX (by simp) [0] rfl fun _ c =>
    if c = 0 then 10 ^ 10 else -10 ^ 10
  simp only [Loss.labelVec, toDMat, DMat.nrows] at h1 h2
  norm_num [Loss.softmaxGrad, Loss.cscore, score, List.ofFn_succ] at h1 h2
  norm_num [sgd, optimize, epochLoop, epoch, shuffleXY, batchLoop, middleRows, DMat.nrows, sgdStep, h1, h2, vanillaUpdateMat, clipGradMat,
    MatOps.clip]

end OpenML
