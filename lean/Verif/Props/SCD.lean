import Verif.Lemmas.SCD
import Verif.Lemmas.Data
import Verif.Props.Loss

/-!
# Coordinate descent (C51, and the part of C47 on `SCD`)
-/

namespace OpenML

open SGD SCD Spec
open scoped BigOperators

set_option linter.unusedSectionVars false

/-- C47: the shuffling of all optimizers applies one permutation to samples and labels. -/
theorem C47_shuffle_pairs {α : Type} (shuffle : Option (Nat → List Nat)) (iter : Nat) (X : DMat α) (hX : X.WF) (y : List α)
    (hy : y.length = X.nrows) (hp : ∀ p, shuffle = some p → (p iter).Perm (List.range X.nrows)) :
    ∃ d, shuffleXY shuffle iter X y = .ok d ∧ d.1.ncols = X.ncols ∧ d.1.WF ∧ d.2.length = d.1.nrows ∧
      (d.1.rows.zip d.2).Perm (X.rows.zip y) ∧ d.1.nrows = X.nrows := by
  cases shuffle with
  | none => exact ⟨(X, y), rfl, rfl, hX, hy, List.Perm.refl _, rfl⟩
  | some p =>
    have hperm := hp p rfl
    have hlen : (p iter).length = X.nrows := by simpa using hperm.length_eq
    have hlr : X.rows.length = y.length := hy.symm
    refine ⟨(⟨X.ncols, Data.scatter (p iter) X.rows X.rows⟩, Data.scatter (p iter) y y), ?_, rfl, ?_, ?_, ?_, ?_⟩
    · simp only [shuffleXY, Data.permuteRows]
      rw [if_pos (show (p iter).length = X.rows.length from hlen), if_pos (hlen.trans hy.symm)]
      rfl
    · intro r hr
      exact hX r ((Data.scatter_perm (p iter) X.rows hperm).mem_iff.mp hr)
    · simp [DMat.nrows, Data.length_scatter, hlr]
    · dsimp only
      rw [← Data.scatter_zip _ _ _ _ _ hlr]
      refine Data.scatter_perm _ _ ?_
      rw [List.length_zip, hlr, Nat.min_self, hy]
      exact hperm
    · simp [DMat.nrows, Data.length_scatter]

/-- Example for `C47_shuffle_pairs`. -/
example : shuffleXY (some fun _ => [2, 0, 1]) 0 ⟨1, [[10], [20], [30]]⟩ [1, 2, 3] = .ok (⟨1, [[20], [30], [10]]⟩, [2, 3, (1 : ℤ)]) := by
  decide +kernel

section
variable {α : Type} [Field α] [LinearOrder α] [IsStrictOrderedRing α]

theorem predDescent_neg (beta lambda x g e : α) : predDescent beta lambda x g e = -predictedChange beta lambda x g e := by
  rw [predDescent_eq]
  unfold predictedChange
  ring

/-- C51: an iteration of `SCD` moves one coordinate `k` by the step `e` such that the predicted change is not positive and
minimal among all coordinates and all steps; no other step for `k` and no coordinate before `k` reaches it. -/
theorem C51_step_optimal (loss : LossFn α (List α)) (beta lambda : α) (hb : 0 < beta) (hl : 0 ≤ lambda) (X : DMat α)
    (y w g : List α) (hg : loss.gradient X y w = .ok g) (hw : w.length = X.ncols) (hgl : g.length = X.ncols) (hd : 0 < X.ncols) :
    ∃ k < X.ncols, ∃ e, scdStep loss beta lambda X y w = .ok (w.set k (w.getD k 0 + e)) ∧
      predictedChange beta lambda (w.getD k 0) (g.getD k 0) e ≤ 0 ∧
      (∀ j < X.ncols, ∀ e', predictedChange beta lambda (w.getD k 0) (g.getD k 0) e ≤
        predictedChange beta lambda (w.getD j 0) (g.getD j 0) e') ∧
      (∀ e', e' ≠ e → predictedChange beta lambda (w.getD k 0) (g.getD k 0) e <
        predictedChange beta lambda (w.getD k 0) (g.getD k 0) e') ∧
      ∀ j < k, ∀ e', predictedChange beta lambda (w.getD k 0) (g.getD k 0) e <
        predictedChange beta lambda (w.getD j 0) (g.getD j 0) e' := by
  obtain ⟨k, hk, he, hall, hfirst⟩ := scdStep_eq loss beta lambda hb hl X y w g hg hw hgl hd
  have hopt : ∀ j e', predDescent beta lambda (w.getD j 0) (g.getD j 0) e' ≤
      predDescent beta lambda (w.getD j 0) (g.getD j 0) (eta beta lambda (w.getD j 0) (g.getD j 0)) :=
    fun j e' => predDescent_le beta lambda _ _ e' hb hl
  refine ⟨k, hk, _, he, ?_, fun j hj e' => ?_, fun e' hne => ?_, fun j hj e' => ?_⟩
  · have h := hopt k 0
    rw [predDescent_zero, predDescent_neg] at h
    linarith
  · have h := (hopt j e').trans (hall j hj)
    rw [predDescent_neg, predDescent_neg] at h
    linarith
  · have h := model_growth beta lambda (w.getD k 0) (g.getD k 0) e' hb hl
    have hpos : 0 < beta / 2 * (e' - eta beta lambda (w.getD k 0) (g.getD k 0)) ^ 2 :=
      mul_pos (by linarith) (pow_pos (abs_pos.mpr (sub_ne_zero.mpr hne)) 2 |>.trans_eq (sq_abs _))
    unfold predictedChange
    linarith
  · have h := lt_of_le_of_lt (hopt j e') (hfirst j hj)
    rw [predDescent_neg, predDescent_neg] at h
    linarith

/-- C51: if moving coordinate `k` by `e` changes the loss by at most its linear term plus `beta / 2 * e^2`, one iteration does
not increase the loss plus `lambda` times the sum of the absolute weights. -/
theorem C51_step_descends (loss : LossFn α (List α)) (beta lambda : α) (hb : 0 < beta) (hl : 0 ≤ lambda) (X : DMat α)
    (y w g : List α) (hg : loss.gradient X y w = .ok g) (hw : w.length = X.ncols) (hgl : g.length = X.ncols) (hd : 0 < X.ncols)
    (F : List α → α)
    (hF : ∀ k < X.ncols, ∀ e, F (w.set k (w.getD k 0 + e)) ≤ F w + e * g.getD k 0 + beta / 2 * e ^ 2) :
    ∃ w', scdStep loss beta lambda X y w = .ok w' ∧ w'.length = X.ncols ∧ F w' + lambda * l1Norm w' ≤ F w + lambda * l1Norm w := by
  obtain ⟨k, hk, e, he, hle, _⟩ := C51_step_optimal loss beta lambda hb hl X y w g hg hw hgl hd
  refine ⟨_, he, by rw [List.length_set, hw], ?_⟩
  have h := hF k hk e
  unfold l1Norm
  rw [sum_abs_set w k (by omega)]
  unfold predictedChange at hle
  linarith

/-- C51: an iteration that changes nothing has reached a minimum over all weights, for every loss that lies above its tangent
planes. -/
theorem C51_fixpoint_optimal (loss : LossFn α (List α)) (beta lambda : α) (hb : 0 < beta) (hl : 0 ≤ lambda) (X : DMat α)
    (y w g : List α) (hg : loss.gradient X y w = .ok g) (hw : w.length = X.ncols) (hgl : g.length = X.ncols) (hd : 0 < X.ncols)
    (hfix : scdStep loss beta lambda X y w = .ok w) (F : List α → α) (hF : IsSubgradient X.ncols F g w) (v : List α)
    (hv : v.length = X.ncols) : F w + lambda * l1Norm w ≤ F v + lambda * l1Norm v := by
  obtain ⟨k, hk, e, he, hle, hall, _⟩ := C51_step_optimal loss beta lambda hb hl X y w g hg hw hgl hd
  have he0 : e = 0 := by
    rw [hfix, Res.ok.injEq] at he
    have h := congrArg (fun l => l.getD k 0) he
    simp only [List.getD_eq_getElem?_getD, List.getElem?_set_self (show k < w.length by omega), Option.getD_some] at h
    linarith
  have hcoord : ∀ j < X.ncols, ∀ e', 0 ≤ e' * g.getD j 0 + lambda * |w.getD j 0 + e'| - lambda * |w.getD j 0| := by
    intro j hj e'
    have h0 : ∀ e'', 0 ≤ predictedChange beta lambda (w.getD j 0) (g.getD j 0) e'' := by
      intro e''
      refine le_trans ?_ (hall j hj e'')
      rw [he0]
      unfold predictedChange
      simp
    have hmin := model_growth beta lambda (w.getD j 0) (g.getD j 0) 0 hb hl
    have h1 := h0 (eta beta lambda (w.getD j 0) (g.getD j 0))
    unfold predictedChange at h1
    have heta : eta beta lambda (w.getD j 0) (g.getD j 0) = 0 := by
      by_contra hne
      have hpos : 0 < beta / 2 * (0 - eta beta lambda (w.getD j 0) (g.getD j 0)) ^ 2 :=
        mul_pos (by linarith) (pow_pos (abs_pos.mpr (by simpa using hne)) 2 |>.trans_eq (sq_abs _))
      simp only [zero_mul, add_zero, ne_eq, OfNat.ofNat_ne_zero, not_false_eq_true, zero_pow, mul_zero, zero_add] at hmin hpos
      linarith
    have h2 := model_growth beta lambda (w.getD j 0) (g.getD j 0) e' hb hl
    rw [heta] at h2
    simp only [zero_mul, add_zero, ne_eq, OfNat.ofNat_ne_zero, not_false_eq_true, zero_pow, mul_zero, zero_add, sub_zero] at h2
    linarith
  have hsum : ∀ (n : Nat) (w g v : List α), w.length = n → g.length = n → v.length = n →
      (∀ j < n, ∀ e', 0 ≤ e' * g.getD j 0 + lambda * |w.getD j 0 + e'| - lambda * |w.getD j 0|) →
      0 ≤ (List.zipWith (· * ·) g (List.zipWith (· - ·) v w)).sum + lambda * l1Norm v - lambda * l1Norm w := by
    intro n
    induction n with
    | zero =>
      intro w g v hw hg hv _
      rw [List.length_eq_zero_iff] at hw hg hv
      subst hw hg hv
      simp [l1Norm]
    | succ n ih =>
      intro w g v hw hg hv h
      cases w with
      | nil => simp at hw
      | cons a w => cases g with
        | nil => simp at hg
        | cons b g => cases v with
          | nil => simp at hv
          | cons c v =>
            have h1 := ih w g v (by simpa using hw) (by simpa using hg) (by simpa using hv)
              (fun j hj e' => by simpa using h (j + 1) (by omega) e')
            have h2 := h 0 (by omega) (c - a)
            simp only [List.getD_cons_zero, add_sub_cancel] at h2
            simp only [l1Norm, List.zipWith_cons_cons, List.sum_cons, List.map_cons] at h1 ⊢
            linarith
  have h := hsum X.ncols w g v hw hgl hv hcoord
  have hs := hF v hv
  linarith

/-- C47, C51: under the same hypothesis on every data order that shuffling can produce, the whole run publishes weights, and
these are no worse than the initial ones. -/
theorem C51_run_descends (loss : LossFn α (List α)) (beta lambda : α) (hb : 0 < beta) (hl : 0 ≤ lambda)
    (shuffle : Option (Nat → List Nat)) (d : Nat) (hd : 0 < d) (F : List α → α) (P : DMat α → List α → Prop)
    (hshuf : ∀ iter X y, P X y → ∃ X' y', shuffleXY shuffle iter X y = .ok (X', y') ∧ P X' y')
    (hgrad : ∀ X y, P X y → X.ncols = d ∧ ∀ w : List α, w.length = d → ∃ g, loss.gradient X y w = .ok g ∧ g.length = d ∧
      ∀ k < d, ∀ e, F (w.set k (w.getD k 0 + e)) ≤ F w + e * g.getD k 0 + beta / 2 * e ^ 2)
    (n : Nat) (X : DMat α) (y w : List α) (hP : P X y) (hw : w.length = d) :
    ∃ w', scd loss beta lambda n shuffle X y w = .ok w' ∧ w'.length = d ∧ F w' + lambda * l1Norm w' ≤ F w + lambda * l1Norm w := by
  unfold scd
  generalize 0 = iter
  induction n generalizing iter X y w with
  | zero => exact ⟨w, rfl, hw, le_refl _⟩
  | succ n ih =>
    obtain ⟨X', y', hs, hP'⟩ := hshuf iter X y hP
    obtain ⟨hc, hg⟩ := hgrad X' y' hP'
    obtain ⟨g, hg, hgl, hF⟩ := hg w hw
    obtain ⟨w1, h1, h1l, h1F⟩ := C51_step_descends loss beta lambda hb hl X' y' w g hg (by omega) (by omega) (by omega) F
      (fun k hk e => hF k (by omega) e)
    obtain ⟨w2, h2, h2l, h2F⟩ := ih X' y' w1 hP' (by omega) (iter + 1)
    refine ⟨w2, ?_, h2l, h2F.trans h1F⟩
    simp only [scdLoop, hs, Res.bind_ok, h1]
    exact h2

end

section MSE
open Loss

theorem score_update {d : Nat} (x : List ℝ) (w : Fin d → ℝ) (k : Fin d) (e : ℝ) :
    score x (Function.update w k (w k + e)) = score x w + e * x.getD k 0 := by
  have h : score x (Function.update w k (w k + e)) - score x w = e * x.getD k 0 := by
    rw [score_sub, Finset.sum_eq_single k]
    · rw [Function.update_self]
      ring
    · intro j _ hj
      rw [Function.update_of_ne hj, sub_self, mul_zero]
    · intro hk
      exact absurd (Finset.mem_univ k) hk
  linarith

theorem mse_coord {d : Nat} (mu : ℝ) (l : List (List ℝ × ℝ)) (hl : l.length ≠ 0) (w : Fin d → ℝ) (k : Fin d) (e : ℝ) :
    meanLoss halfSquare l (Function.update w k (w k + e)) + mu * ridgeTerm l.length (Function.update w k (w k + e)) =
      meanLoss halfSquare l w + mu * ridgeTerm l.length w + e * gradOf (fun a s => s - a) mu l w k +
        ((l.map fun p => p.1.getD k 0 ^ 2).sum + mu) / l.length / 2 * e ^ 2 := by
  have hn : (l.length : ℝ) ≠ 0 := Nat.cast_ne_zero.mpr hl
  have h1 : ridgeTerm l.length (Function.update w k (w k + e)) = ridgeTerm l.length w + (2 * w k * e + e ^ 2) / (2 * l.length) := by
    have h : ∑ j, Function.update w k (w k + e) j ^ 2 - ∑ j, w j ^ 2 = 2 * w k * e + e ^ 2 := by
      rw [← Finset.sum_sub_distrib, Finset.sum_eq_single k]
      · rw [Function.update_self]
        ring
      · intro j _ hj
        rw [Function.update_of_ne hj, sub_self]
      · intro hk
        exact absurd (Finset.mem_univ k) hk
    unfold ridgeTerm
    rw [← h]
    ring
  have h2 : (l.map fun p => halfSquare p.2 (score p.1 (Function.update w k (w k + e)))).sum =
      (l.map fun p => halfSquare p.2 (score p.1 w)).sum + e * (l.map fun p => (score p.1 w - p.2) * p.1.getD k 0).sum +
        e ^ 2 / 2 * (l.map fun p => p.1.getD k 0 ^ 2).sum := by
    clear hl hn h1
    induction l with
    | nil => simp
    | cons p l ih =>
      rw [List.map_cons, List.sum_cons, ih, score_update]
      simp only [List.map_cons, List.sum_cons]
      have h : halfSquare p.2 (score p.1 w + e * p.1.getD k 0) = halfSquare p.2 (score p.1 w) +
          e * ((score p.1 w - p.2) * p.1.getD k 0) + e ^ 2 / 2 * p.1.getD k 0 ^ 2 := by
        unfold halfSquare
        ring
      rw [h]
      ring
  rw [h1]
  unfold meanLoss gradOf
  rw [h2]
  field_simp
  ring

theorem ofFn_set {d : Nat} (w : Fin d → ℝ) (k : Fin d) (a : ℝ) : (List.ofFn w).set k a = List.ofFn (Function.update w k a) := by
  refine List.ext_getElem (by simp) fun i h1 h2 => ?_
  rw [List.getElem_set, List.getElem_ofFn, List.getElem_ofFn]
  by_cases h : i = k.val
  · subst h
    simp
  · rw [if_neg (Ne.symm h), Function.update_of_ne (fun hc => h (congrArg Fin.val hc))]

/-- C51: for the mean squared error with ridge parameter `mu` (the loss of `LassoRegression`, with `mu = 0`): if the step constant
is not below the mean square of any feature (plus `mu / n`), `SCD` publishes weights after `max_iter` iterations for which loss
plus `lambda` times the sum of the absolute weights is not larger than at the start. -/
theorem C51_mse (mu beta lambda : ℝ) (hb : 0 < beta) (hl : 0 ≤ lambda) (shuffle : Option (Nat → List Nat)) (maxIter : Nat)
    (X : DMat ℝ) (hX : X.WF) (hn : X.nrows ≠ 0) (hd : 0 < X.ncols) (y : List ℝ) (hy : y.length = X.nrows)
    (hp : ∀ p, shuffle = some p → ∀ i, (p i).Perm (List.range X.nrows))
    (hcurv : ∀ j < X.ncols, ((X.rows.map fun r => r.getD j 0 ^ 2).sum + mu) / X.nrows ≤ beta)
    (w : List ℝ) (hw : w.length = X.ncols) :
    ∃ w' a b, scd ⟨mseEvaluate mu, mseGradient mu⟩ beta lambda maxIter shuffle X y w = .ok w' ∧
      mseEvaluate mu X y w = .ok a ∧ mseEvaluate mu X y w' = .ok b ∧ b + lambda * l1Norm w' ≤ a + lambda * l1Norm w := by
  have hzl : (X.rows.zip y).length = X.nrows := by
    rw [List.length_zip, hy]; exact Nat.min_self _
  have hcols : ∀ j, ((X.rows.zip y).map fun p => p.1.getD j 0 ^ 2).sum = (X.rows.map fun r => r.getD j 0 ^ 2).sum := by
    intro j
    have : (X.rows.zip y).map (fun p => p.1.getD j 0 ^ 2) = ((X.rows.zip y).map Prod.fst).map fun r => r.getD j 0 ^ 2 := by
      rw [List.map_map]; rfl
    rw [this, List.map_fst_zip (by rw [hy]; exact le_refl _)]
  obtain ⟨w', h1, h2, h3⟩ := C51_run_descends (⟨mseEvaluate mu, mseGradient mu⟩ : LossFn ℝ (List ℝ)) beta lambda hb hl shuffle X.ncols hd
    (fun v => meanLoss halfSquare (X.rows.zip y) (fun j : Fin X.ncols => v.getD j 0) +
      mu * ridgeTerm X.nrows (fun j : Fin X.ncols => v.getD j 0))
    (fun X' y' => X'.ncols = X.ncols ∧ X'.WF ∧ y'.length = X'.nrows ∧ (X'.rows.zip y').Perm (X.rows.zip y) ∧ X'.nrows = X.nrows)
    (by
      rintro iter X' y' ⟨hc, hwf, hyl, hperm, hnr⟩
      obtain ⟨⟨X2, y2⟩, hs, g1, g2, g3, g4, g5⟩ := C47_shuffle_pairs shuffle iter X' hwf y' hyl
        (fun p hps => by rw [hnr]; exact hp p hps iter)
      exact ⟨X2, y2, hs, g1.trans hc, g2, g3, g4.trans hperm, g5.trans hnr⟩)
    (by
      rintro ⟨nc, rows⟩ y' ⟨hc, hwf, hyl, hperm, hnr⟩
      dsimp only at hc
      subst hc
      refine ⟨rfl, fun v hv => ?_⟩
      obtain ⟨f, rfl⟩ := exists_ofFn v hv
      refine ⟨_, mseGradient_eq mu ⟨X.ncols, rows⟩ hwf y' hyl f, by simp, fun k hk e => ?_⟩
      have hfun : ∀ f : Fin X.ncols → ℝ, (fun j : Fin X.ncols => (List.ofFn f).getD j 0) = f := by
        intro f
        funext j
        simp [List.getD_eq_getElem?_getD]
      have hzl' : (rows.zip y').length = X.nrows := by rw [hperm.length_eq, hzl]
      have hgk : (List.ofFn f).getD k 0 = f ⟨k, hk⟩ := by simp [List.getD_eq_getElem?_getD, hk]
      have hgk' : (List.ofFn (gradOf (fun a s => s - a) mu (rows.zip y') f)).getD k 0 =
          gradOf (fun a s => s - a) mu (rows.zip y') f ⟨k, hk⟩ := by simp [List.getD_eq_getElem?_getD, hk]
      dsimp only
      rw [hgk, hgk', show (List.ofFn f).set k (f ⟨k, hk⟩ + e) = List.ofFn (Function.update f ⟨k, hk⟩ (f ⟨k, hk⟩ + e)) from
        ofFn_set f ⟨k, hk⟩ _, hfun, hfun]
      have hmean : ∀ v : Fin X.ncols → ℝ, meanLoss halfSquare (X.rows.zip y) v = meanLoss halfSquare (rows.zip y') v := by
        intro v
        unfold meanLoss
        rw [(hperm.map fun p => halfSquare p.2 (score p.1 v)).sum_eq, hperm.length_eq]
      rw [hmean, hmean]
      have h := mse_coord mu (rows.zip y') (by rw [hzl']; exact hn) f ⟨k, hk⟩ e
      rw [hzl'] at h
      rw [h]
      have hc := hcurv k hk
      rw [← hcols k, ← (hperm.map fun p => p.1.getD k 0 ^ 2).sum_eq] at hc
      have := mul_le_mul_of_nonneg_right (div_le_div_of_nonneg_right hc (by norm_num : (0 : ℝ) ≤ 2)) (sq_nonneg e)
      linarith)
    maxIter X y w ⟨rfl, hX, hy, List.Perm.refl _, rfl⟩ hw
  obtain ⟨f, rfl⟩ := exists_ofFn w hw
  obtain ⟨f', rfl⟩ := exists_ofFn w' h2
  have hfun : ∀ f : Fin X.ncols → ℝ, (fun j : Fin X.ncols => (List.ofFn f).getD j 0) = f := by
    intro f
    funext j
    simp [List.getD_eq_getElem?_getD]
  rw [hfun, hfun] at h3
  exact ⟨_, _, _, h1, mseEvaluate_eq mu X hX y hy f, mseEvaluate_eq mu X hX y hy f', h3⟩

end MSE

/-- Example for C51: two iterations on two features; the first moves coordinate 0, the second changes nothing any more. -/
example : scd ⟨Loss.mseEvaluate (0 : ℚ), Loss.mseGradient 0⟩ 1 (1 / 2) 1 none ⟨2, [[1, 0], [-1, 1]]⟩ [3, -3] [0, 0] =
      .ok [5 / 2, 0] ∧
    scdStep ⟨Loss.mseEvaluate (0 : ℚ), Loss.mseGradient 0⟩ 1 (1 / 2) ⟨2, [[1, 0], [-1, 1]]⟩ [3, -3] [5 / 2, 0] =
      .ok [5 / 2, 0] := by decide +kernel

/-- The hypotheses of `C51_mse` for this data: mean squares of the features are 1 and 1/2. -/
example : ∀ j < 2, ((([[1, 0], [-1, 1]] : List (List ℝ)).map fun r => r.getD j 0 ^ 2).sum + 0) / 2 ≤ 1 := by
  intro j hj
  obtain rfl | rfl : j = 0 ∨ j = 1 := by omega
  · norm_num
  · norm_num

end OpenML
