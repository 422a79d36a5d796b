import Verif.Model.Loss
import Verif.Spec.Loss
import Verif.Lemmas.Analytic
import Verif.Lemmas.DMat
import Mathlib.Analysis.Calculus.Deriv.Pow
import Mathlib.Analysis.Calculus.Deriv.Mul
import Mathlib.Analysis.Calculus.FDeriv.Mul
import Mathlib.Analysis.Calculus.Deriv.Comp
import Mathlib.Analysis.SpecialFunctions.Log.Deriv
import Mathlib.Analysis.Convex.Deriv
import Mathlib.Tactic.Linarith
import Mathlib.Tactic.Ring
import Mathlib.Tactic.FieldSimp

/-!
# Lemmas about the loss functions
-/

set_option linter.unusedSectionVars false

namespace OpenML.Loss

open Spec

theorem dotL_cons {α : Type} [Semiring α] (a b : α) (l m : List α) : dotL (a :: l) (b :: m) = a * b + dotL l m := by
  simp [dotL]

theorem dotL_eq_sum (x : List ℝ) : ∀ {d : Nat} (w : Fin d → ℝ), x.length = d → dotL x (List.ofFn w) = score x w := by
  induction x with
  | nil => intro d w h; cases h; simp [dotL, score]
  | cons a x ih =>
    intro d w h
    cases d with
    | zero => simp at h
    | succ d =>
      rw [List.ofFn_succ, dotL_cons, ih (fun i => w i.succ) (by simpa using h)]
      unfold score
      rw [Fin.sum_univ_succ]
      simp

/-- The score as a continuous linear function of the weights. -/
noncomputable def scoreCLM {d : Nat} (x : List ℝ) : (Fin d → ℝ) →L[ℝ] ℝ :=
  ∑ j : Fin d, x.getD j 0 • (ContinuousLinearMap.proj j : (Fin d → ℝ) →L[ℝ] ℝ)

theorem scoreCLM_apply {d : Nat} (x : List ℝ) (w : Fin d → ℝ) : scoreCLM x w = score x w := by
  simp [scoreCLM, score, ContinuousLinearMap.sum_apply]

theorem hasFDerivAt_score {d : Nat} (x : List ℝ) (w : Fin d → ℝ) : HasFDerivAt (fun v : Fin d → ℝ => score x v) (scoreCLM x) w := by
  have h := (scoreCLM (d := d) x).hasFDerivAt (x := w)
  refine h.congr_of_eventuallyEq ?_
  exact Filter.Eventually.of_forall fun v => (scoreCLM_apply x v).symm

theorem hasFDerivAt_samples {d : Nat} (phi dphi : ℝ → ℝ → ℝ) (h : ∀ y s, HasDerivAt (phi y) (dphi y s) s)
    (l : List (List ℝ × ℝ)) (w : Fin d → ℝ) :
    HasFDerivAt (fun v : Fin d → ℝ => (l.map fun p => phi p.2 (score p.1 v)).sum)
      ((l.map fun p => dphi p.2 (score p.1 w) • (scoreCLM p.1 : (Fin d → ℝ) →L[ℝ] ℝ)).sum) w := by
  induction l with
  | nil => simpa using hasFDerivAt_const (0 : ℝ) w
  | cons p l ih =>
    simp only [List.map_cons, List.sum_cons]
    exact ((h p.2 (score p.1 w)).comp_hasFDerivAt w (hasFDerivAt_score p.1 w)).add ih

theorem list_sum_apply {β : Type} {d : Nat} (l : List β) (f : β → (Fin d → ℝ) →L[ℝ] ℝ) (v : Fin d → ℝ) :
    (l.map f).sum v = (l.map fun b => f b v).sum := by
  induction l with
  | nil => simp
  | cons b l ih => simp [ih]

/-- The gradient of a mean loss with ridge term. -/
noncomputable def gradOf {d : Nat} (dphi : ℝ → ℝ → ℝ) (lambda : ℝ) (l : List (List ℝ × ℝ)) (w : Fin d → ℝ) (j : Fin d) : ℝ :=
  (l.map fun p => dphi p.2 (score p.1 w) * p.1.getD j 0).sum / l.length + w j / l.length * lambda

theorem sum_list_finset {β : Type} {d : Nat} (l : List β) (f : β → Fin d → ℝ) :
    ∑ j, (l.map fun b => f b j).sum = (l.map fun b => ∑ j, f b j).sum := by
  induction l with
  | nil => simp
  | cons b l ih => simp [Finset.sum_add_distrib, ih]

theorem hasFDerivAt_sq {d : Nat} (w : Fin d → ℝ) :
    HasFDerivAt (fun v : Fin d → ℝ => ∑ j, v j ^ 2) (∑ j, (2 * w j) • (ContinuousLinearMap.proj j : (Fin d → ℝ) →L[ℝ] ℝ)) w := by
  refine HasFDerivAt.fun_sum fun j _ => ?_
  have h1 : HasDerivAt (fun t : ℝ => t ^ 2) (2 * w j) (w j) := by simpa using hasDerivAt_pow 2 (w j)
  exact h1.comp_hasFDerivAt w (ContinuousLinearMap.proj (R := ℝ) (φ := fun _ : Fin d => ℝ) j).hasFDerivAt

theorem isGradient_meanLoss {d : Nat} (phi dphi : ℝ → ℝ → ℝ) (h : ∀ y s, HasDerivAt (phi y) (dphi y s) s) (lambda : ℝ)
    (l : List (List ℝ × ℝ)) (w : Fin d → ℝ) :
    IsGradient (fun v => meanLoss phi l v + lambda * ridgeTerm l.length v) (gradOf dphi lambda l w) w := by
  unfold IsGradient
  have h1 := ((hasFDerivAt_samples phi dphi h l w).mul_const ((l.length : ℝ)⁻¹)).add
    (((hasFDerivAt_sq w).mul_const ((2 * (l.length : ℝ))⁻¹)).const_mul lambda)
  have e : (∑ j, gradOf dphi lambda l w j • (ContinuousLinearMap.proj j : (Fin d → ℝ) →L[ℝ] ℝ)) =
      (l.length : ℝ)⁻¹ • ((l.map fun p => dphi p.2 (score p.1 w) • (scoreCLM p.1 : (Fin d → ℝ) →L[ℝ] ℝ)).sum) +
        lambda • ((2 * (l.length : ℝ))⁻¹ • (∑ j, (2 * w j) • (ContinuousLinearMap.proj j : (Fin d → ℝ) →L[ℝ] ℝ))) := by
    ext v
    simp only [ContinuousLinearMap.sum_apply, ContinuousLinearMap.add_apply, ContinuousLinearMap.smul_apply,
      ContinuousLinearMap.proj_apply, smul_eq_mul, list_sum_apply, scoreCLM_apply, gradOf, add_mul, Finset.sum_add_distrib]
    congr 1
    · have h2 : ∀ p : List ℝ × ℝ, dphi p.2 (score p.1 w) * score p.1 v =
          ∑ j : Fin d, dphi p.2 (score p.1 w) * p.1.getD j 0 * v j := by
        intro p
        unfold score
        rw [Finset.mul_sum]
        exact Finset.sum_congr rfl fun j _ => by ring
      rw [List.map_congr_left (fun p _ => h2 p), ← sum_list_finset, Finset.mul_sum]
      refine Finset.sum_congr rfl fun j _ => ?_
      rw [List.sum_map_mul_right]
      ring
    · rw [Finset.mul_sum, Finset.mul_sum]
      refine Finset.sum_congr rfl fun j _ => ?_
      rw [mul_inv]
      ring
  rw [e]
  refine h1.congr_of_eventuallyEq (Filter.Eventually.of_forall fun v => ?_)
  simp only [meanLoss, ridgeTerm, div_eq_mul_inv, Pi.add_apply]

theorem col_dot {d : Nat} (rows : List (List ℝ)) (v : List ℝ) (j : Fin d) (hr : ∀ r ∈ rows, r.length = d) :
    dotL (rows.filterMap (·[j.val]?)) v = (List.zipWith (fun r a => a * r.getD j 0) rows v).sum := by
  induction rows generalizing v with
  | nil => simp [dotL]
  | cons r rows ih =>
    have hj : j.val < r.length := by rw [hr r (by simp)]; exact j.isLt
    have h1 : (r :: rows).filterMap (·[j.val]?) = r[j.val] :: rows.filterMap (·[j.val]?) := by
      simp [List.filterMap_cons, List.getElem?_eq_getElem hj]
    rw [h1]
    cases v with
    | nil => simp [dotL]
    | cons a v =>
      rw [dotL_cons, ih v (fun r hr' => hr r (by simp [hr']))]
      simp [List.getElem?_eq_getElem hj, mul_comm]

theorem cols_dot (X : DMat ℝ) (hX : X.WF) (v : List ℝ) :
    X.cols.map (fun c => dotL c v) =
      List.ofFn fun j : Fin X.ncols => (List.zipWith (fun r a => a * r.getD j 0) X.rows v).sum := by
  refine List.ext_getElem (by simp [DMat.cols]) fun i h1 h2 => ?_
  have hi : i < X.ncols := by simpa [DMat.cols] using h1
  simp only [DMat.cols, DMat.col, List.getElem_map, List.getElem_range, List.getElem_ofFn]
  exact col_dot X.rows v ⟨i, hi⟩ hX

theorem scores_eq (X : DMat ℝ) (hX : X.WF) (w : Fin X.ncols → ℝ) :
    mulVec X (List.ofFn w) = .ok (X.rows.map fun r => score r w) := by
  unfold mulVec
  rw [if_pos (by simp)]
  congr 1
  exact List.map_congr_left fun r hr => dotL_eq_sum r w (hX r hr)

theorem penalty_eq {d : Nat} (lambda : ℝ) (n : Nat) (w : Fin d → ℝ) :
    penalty lambda n (List.ofFn w) = lambda * ridgeTerm n w := by
  have h : dotL (List.ofFn w) (List.ofFn w) = ∑ j, w j ^ 2 := by
    rw [dotL_eq_sum _ w (by simp)]
    unfold score
    refine Finset.sum_congr rfl fun j _ => ?_
    simp [List.getD_eq_getElem?_getD, pow_two]
  rw [penalty, h, ridgeTerm]
  ring

theorem zipWith_eq_zip_map {β γ δ : Type} (f : β → γ → δ) (l : List β) (m : List γ) :
    List.zipWith f l m = (l.zip m).map fun p => f p.1 p.2 := by
  induction l generalizing m with
  | nil => rfl
  | cons a l ih => cases m <;> simp [ih]

theorem zip_map_right_self (rows : List (List ℝ)) (f : List ℝ → ℝ) (g : ℝ → ℝ → ℝ) (y : List ℝ) (h : List ℝ → ℝ → ℝ) :
    List.zipWith h rows (List.zipWith g (rows.map f) y) = (rows.zip y).map fun p => h p.1 (g (f p.1) p.2) := by
  induction rows generalizing y with
  | nil => rfl
  | cons r rows ih => cases y <;> simp [ih]

/-- Assembling a gradient from residuals `g (score) y`. -/
theorem gradient_eq (lambda : ℝ) (X : DMat ℝ) (hX : X.WF) (y : List ℝ) (hy : y.length = X.nrows) (w : Fin X.ncols → ℝ)
    (g : ℝ → ℝ → ℝ) (dphi : ℝ → ℝ → ℝ) (hg : ∀ s a, g s a = dphi a s) :
    (tmulVec X (List.zipWith g (X.rows.map fun r => score r w) y) >>= fun gr =>
        addV (gr.map fun a => a / (X.nrows : ℝ)) (penaltyGrad lambda X.nrows (List.ofFn w))) =
      .ok (List.ofFn (gradOf dphi lambda (X.rows.zip y) w)) := by
  have hl : (X.rows.zip y).length = X.nrows := by
    rw [List.length_zip, hy]; exact Nat.min_self _
  unfold tmulVec
  rw [if_pos (by simp [hy, DMat.nrows]), Res.bind_ok, cols_dot X hX]
  unfold addV
  rw [if_pos (by simp [penaltyGrad])]
  congr 1
  refine List.ext_getElem (by simp [penaltyGrad]) fun i h1 h2 => ?_
  simp only [List.getElem_zipWith, List.getElem_map, List.getElem_ofFn, penaltyGrad, gradOf, hl]
  congr 3
  rw [zip_map_right_self]
  congr 1
  congr 1
  funext p
  rw [hg]

theorem sigmoidV_eq (v : List ℝ) : sigmoidV v = v.map Real.sigmoid := by
  unfold sigmoidV
  rw [Analytic.sigmoid_eq]
  induction v with
  | nil => rfl
  | cons a v ih => simpa using ih

theorem halfSquare_deriv (y s : ℝ) : HasDerivAt (halfSquare y) (s - y) s := by
  have h := (((hasDerivAt_id s).const_sub y).pow 2).div_const 2
  refine (h.congr_deriv ?_)
  simp
  ring

theorem crossEntropy_deriv (y s : ℝ) : HasDerivAt (crossEntropy y) (Real.sigmoid s - y) s := by
  have hp := Real.sigmoid_pos s
  have hq := Real.sigmoid_lt_one s
  have h0 := Real.hasDerivAt_sigmoid s
  have h1 := (h0.log hp.ne').const_mul y
  have h2 := ((h0.const_sub 1).log (sub_pos.mpr hq).ne').const_mul (1 - y)
  refine ((h1.add h2).neg).congr_deriv ?_
  have hq' : 1 - Real.sigmoid s ≠ 0 := (sub_pos.mpr hq).ne'
  field_simp
  ring

/-- A function with monotone derivative lies above its tangents. -/
theorem tangent_le (f df : ℝ → ℝ) (h : ∀ s, HasDerivAt f (df s) s) (hm : Monotone df) (s t : ℝ) :
    f s + df s * (t - s) ≤ f t := by
  have hd : Differentiable ℝ f := fun s => (h s).differentiableAt
  rcases le_total s t with hst | hst
  · have := Convex.mul_sub_le_image_sub_of_le_deriv (convex_Ici s) hd.continuous.continuousOn hd.differentiableOn
      (C := df s) (fun x hx => by
        rw [(h x).deriv]
        rw [interior_Ici] at hx
        exact hm hx.le) s Set.self_mem_Ici t hst hst
    linarith
  · have := Convex.image_sub_le_mul_sub_of_deriv_le (convex_Iic s) hd.continuous.continuousOn hd.differentiableOn
      (C := df s) (fun x hx => by
        rw [(h x).deriv]
        rw [interior_Iic] at hx
        exact hm hx.le) t hst s Set.self_mem_Iic hst
    linarith

theorem score_sub {d : Nat} (x : List ℝ) (v w : Fin d → ℝ) : score x v - score x w = ∑ j : Fin d, x.getD j 0 * (v j - w j) := by
  unfold score
  rw [← Finset.sum_sub_distrib]
  exact Finset.sum_congr rfl fun j _ => by ring

/-- A mean loss with ridge term lies above its tangents. -/
theorem meanLoss_tangent {d : Nat} (phi dphi : ℝ → ℝ → ℝ) (ht : ∀ y s t, phi y s + dphi y s * (t - s) ≤ phi y t) (lambda : ℝ)
    (hl : 0 ≤ lambda) (l : List (List ℝ × ℝ)) (v w : Fin d → ℝ) :
    meanLoss phi l w + lambda * ridgeTerm l.length w + ∑ j, gradOf dphi lambda l w j * (v j - w j) ≤
      meanLoss phi l v + lambda * ridgeTerm l.length v := by
  have h1 : (l.map fun p => phi p.2 (score p.1 w)).sum +
      ∑ j, (l.map fun p => dphi p.2 (score p.1 w) * p.1.getD j 0).sum * (v j - w j) ≤
        (l.map fun p => phi p.2 (score p.1 v)).sum := by
    induction l with
    | nil => simp
    | cons p l ih =>
      simp only [List.map_cons, List.sum_cons, add_mul, Finset.sum_add_distrib]
      have h2 := ht p.2 (score p.1 w) (score p.1 v)
      rw [score_sub, Finset.mul_sum] at h2
      have h3 : ∑ j : Fin d, dphi p.2 (score p.1 w) * (p.1.getD j 0 * (v j - w j)) =
          ∑ j : Fin d, dphi p.2 (score p.1 w) * p.1.getD j 0 * (v j - w j) := Finset.sum_congr rfl fun j _ => by ring
      rw [h3] at h2
      linarith
  have h4 : ∑ j, w j ^ 2 + 2 * ∑ j, w j * (v j - w j) ≤ ∑ j, v j ^ 2 := by
    rw [Finset.mul_sum, ← Finset.sum_add_distrib]
    refine Finset.sum_le_sum fun j _ => ?_
    nlinarith [sq_nonneg (v j - w j)]
  have hn : (0 : ℝ) ≤ (l.length : ℝ)⁻¹ := inv_nonneg.mpr (Nat.cast_nonneg _)
  have h5 := mul_le_mul_of_nonneg_right h1 hn
  have h6 := mul_le_mul_of_nonneg_left (mul_le_mul_of_nonneg_right h4 hn) hl
  have h7 : ∑ j, gradOf dphi lambda l w j * (v j - w j) =
      (∑ j, (l.map fun p => dphi p.2 (score p.1 w) * p.1.getD j 0).sum * (v j - w j)) * (l.length : ℝ)⁻¹ +
        lambda * ((∑ j, w j * (v j - w j)) * (l.length : ℝ)⁻¹) := by
    unfold gradOf
    rw [Finset.sum_mul, Finset.sum_mul, Finset.mul_sum, ← Finset.sum_add_distrib]
    exact Finset.sum_congr rfl fun j _ => by ring
  rw [h7]
  simp only [meanLoss, ridgeTerm, div_eq_mul_inv, mul_inv]
  linarith

theorem halfSquare_tangent (y s t : ℝ) : halfSquare y s + (s - y) * (t - s) ≤ halfSquare y t := by
  unfold halfSquare
  nlinarith [sq_nonneg (t - s)]

theorem crossEntropy_tangent (y s t : ℝ) : crossEntropy y s + (Real.sigmoid s - y) * (t - s) ≤ crossEntropy y t :=
  tangent_le (crossEntropy y) (fun s => Real.sigmoid s - y) (crossEntropy_deriv y)
    (fun _ _ h => sub_le_sub_right (Real.sigmoid_monotone h) y) s t

theorem mseEvaluate_eq (lambda : ℝ) (X : DMat ℝ) (hX : X.WF) (y : List ℝ) (hy : y.length = X.nrows) (w : Fin X.ncols → ℝ) :
    mseEvaluate lambda X y (List.ofFn w) =
      .ok (meanLoss halfSquare (X.rows.zip y) w + lambda * ridgeTerm X.nrows w) := by
  have hl : (X.rows.zip y).length = X.nrows := by
    rw [List.length_zip, hy]; exact Nat.min_self _
  unfold mseEvaluate
  rw [scores_eq X hX w, Res.bind_ok]
  unfold subV
  rw [if_pos (by simp [hy, DMat.nrows]), Res.bind_ok, penalty_eq]
  dsimp only
  congr 2
  unfold meanLoss
  rw [hl]
  congr 1
  rw [← List.sum_map_mul_left]
  congr 1
  generalize X.rows = rows
  clear hl hy
  induction rows generalizing y with
  | nil => simp
  | cons r rows ih =>
    cases y with
    | nil => simp
    | cons a y =>
      simp only [List.map_cons, List.zipWith_cons_cons, List.zip_cons_cons, ih y]
      congr 1
      unfold halfSquare
      ring

theorem mseGradient_eq (lambda : ℝ) (X : DMat ℝ) (hX : X.WF) (y : List ℝ) (hy : y.length = X.nrows) (w : Fin X.ncols → ℝ) :
    mseGradient lambda X y (List.ofFn w) = .ok (List.ofFn (gradOf (fun a s => s - a) lambda (X.rows.zip y) w)) := by
  unfold mseGradient
  rw [scores_eq X hX w, Res.bind_ok]
  unfold subV
  rw [if_pos (by simp [hy, DMat.nrows]), Res.bind_ok]
  exact gradient_eq lambda X hX y hy w (· - ·) _ fun _ _ => rfl

theorem logEvaluate_eq (lambda : ℝ) (X : DMat ℝ) (hX : X.WF) (y : List ℝ) (hy : y.length = X.nrows) (w : Fin X.ncols → ℝ) :
    logEvaluate lambda X y (List.ofFn w) =
      .ok (meanLoss crossEntropy (X.rows.zip y) w + lambda * ridgeTerm X.nrows w) := by
  have hl : (X.rows.zip y).length = X.nrows := by
    rw [List.length_zip, hy]; exact Nat.min_self _
  unfold logEvaluate
  rw [scores_eq X hX w, Res.bind_ok]
  simp only [sigmoidV_eq]
  rw [if_neg (by simp [hy, DMat.nrows])]
  unfold subV
  rw [if_pos (by simp), Res.bind_ok, penalty_eq]
  congr 2
  unfold meanLoss
  rw [hl]
  congr 2
  generalize X.rows = rows
  clear hl hy
  induction rows generalizing y with
  | nil => simp
  | cons r rows ih =>
    cases y with
    | nil => simp
    | cons a y =>
      simp only [List.map_cons, List.zipWith_cons_cons, List.zip_cons_cons, ih y]
      congr 1
      unfold crossEntropy
      ring

theorem logGradient_eq (lambda : ℝ) (X : DMat ℝ) (hX : X.WF) (y : List ℝ) (hy : y.length = X.nrows) (w : Fin X.ncols → ℝ) :
    logGradient lambda X y (List.ofFn w) =
      .ok (List.ofFn (gradOf (fun a s => Real.sigmoid s - a) lambda (X.rows.zip y) w)) := by
  unfold logGradient
  rw [scores_eq X hX w, Res.bind_ok]
  unfold subV
  rw [sigmoidV_eq, if_pos (by simp [hy, DMat.nrows]), Res.bind_ok]
  have h : List.zipWith (· - ·) ((X.rows.map fun r => score r w).map Real.sigmoid) y =
      List.zipWith (fun s a => Real.sigmoid s - a) (X.rows.map fun r => score r w) y := by
    rw [List.zipWith_map_left]
  rw [h]
  exact gradient_eq lambda X hX y hy w _ _ fun _ _ => rfl

end OpenML.Loss
