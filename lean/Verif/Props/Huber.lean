import Verif.Lemmas.Loss
import Mathlib.Analysis.Calculus.Deriv.Basic
import Mathlib.Analysis.Asymptotics.Lemmas
import Mathlib.Tactic.FinCases

/-!
# The gradient of the Huber loss (C114)
-/

namespace OpenML

open Spec Loss
open scoped BigOperators

namespace Huber

/-- Slope of the documented loss in the score. -/
noncomputable def slope (delta : ℝ) (a s : ℝ) : ℝ := max (-delta) (min delta (s - a))

theorem huber_cases (delta r : ℝ) (hd : 0 ≤ delta) :
    (r ≤ -delta ∧ huber delta r = -delta * r - delta ^ 2 / 2) ∨ (-delta ≤ r ∧ r ≤ delta ∧ huber delta r = r ^ 2 / 2) ∨
      (delta ≤ r ∧ huber delta r = delta * r - delta ^ 2 / 2) := by
  unfold huber
  rcases le_total r (-delta) with h | h
  · left
    refine ⟨h, ?_⟩
    rw [abs_of_nonpos (by linarith)]
    split
    · have : r = -delta := by linarith
      rw [this]; ring
    · ring
  · rcases le_total r delta with h' | h'
    · right; left
      exact ⟨h, h', if_pos (abs_le.mpr ⟨h, h'⟩)⟩
    · right; right
      refine ⟨h', ?_⟩
      rw [abs_of_nonneg (by linarith)]
      split
      · have : r = delta := by linarith
        rw [this]; ring
      · ring

theorem slope_cases (delta a s : ℝ) (hd : 0 ≤ delta) :
    (a - s ≤ -delta → slope delta a s = delta) ∧ (-delta ≤ a - s → a - s ≤ delta → slope delta a s = s - a) ∧
      (delta ≤ a - s → slope delta a s = -delta) := by
  unfold slope
  refine ⟨fun h => ?_, fun h h' => ?_, fun h => ?_⟩
  · rw [min_eq_left (by linarith), max_eq_right (by linarith)]
  · rw [min_eq_right (by linarith), max_eq_right (by linarith)]
  · rw [min_eq_right (by linarith), max_eq_left (by linarith)]

theorem huber_bound (delta a s t : ℝ) (hd : 0 ≤ delta) :
    |huber delta (a - t) - huber delta (a - s) - slope delta a s * (t - s)| ≤ (t - s) ^ 2 := by
  obtain ⟨s1, s2, s3⟩ := slope_cases delta a s hd
  rw [abs_le]
  rcases huber_cases delta (a - s) hd with ⟨h1, h2⟩ | ⟨h1, h1', h2⟩ | ⟨h1, h2⟩ <;>
  rcases huber_cases delta (a - t) hd with ⟨h3, h4⟩ | ⟨h3, h3', h4⟩ | ⟨h3, h4⟩ <;>
  first | rw [s1 h1, h2, h4] | rw [s2 h1 h1', h2, h4] | rw [s3 h1, h2, h4] <;> skip
  all_goals constructor <;> nlinarith [sq_nonneg (t - s), sq_nonneg (a - t - delta), sq_nonneg (a - t + delta), sq_nonneg (a - s - delta), sq_nonneg (a - s + delta), mul_nonneg hd hd]

theorem huber_deriv (delta : ℝ) (hd : 0 ≤ delta) (a s : ℝ) : HasDerivAt (fun s => huber delta (a - s)) (slope delta a s) s := by
  rw [hasDerivAt_iff_isLittleO]
  refine Asymptotics.IsBigO.trans_isLittleO (g := fun t => (t - s) ^ 2) ?_ ?_
  · refine Asymptotics.IsBigO.of_bound 1 (Filter.Eventually.of_forall fun t => ?_)
    rw [one_mul, Real.norm_eq_abs, Real.norm_eq_abs, abs_of_nonneg (sq_nonneg (t - s)), smul_eq_mul, mul_comm (t - s)]
    exact huber_bound delta a s t hd
  · have h := (Asymptotics.isLittleO_pow_id (𝕜 := ℝ) (n := 2) (by norm_num)).comp_tendsto
      (show Filter.Tendsto (fun t : ℝ => t - s) (nhds s) (nhds 0) by
        have : Filter.Tendsto (fun t : ℝ => t - s) (nhds s) (nhds (s - s)) := (continuous_id.sub continuous_const).tendsto s
        rwa [sub_self] at this)
    exact h

theorem zip_scores (rows : List (List ℝ)) (f : List ℝ → ℝ) (g : ℝ → ℝ → ℝ) (y : List ℝ) :
    List.zipWith g (rows.map f) y = (rows.zip y).map fun p => g (f p.1) p.2 := by
  induction rows generalizing y with
  | nil => rfl
  | cons r rows ih => cases y <;> simp [ih]

theorem zip_scores' (rows : List (List ℝ)) (f : List ℝ → ℝ) (g : ℝ → ℝ → ℝ) (y : List ℝ) :
    List.zipWith g y (rows.map f) = (rows.zip y).map fun p => g p.2 (f p.1) := by
  induction rows generalizing y with
  | nil => simp
  | cons r rows ih => cases y <;> simp [ih]

/-- Gradient whose residuals agree with the slopes on the samples. -/
theorem assemble (lambda c : ℝ) (X : DMat ℝ) (hX : X.WF) (y : List ℝ) (hy : y.length = X.nrows) (w : Fin X.ncols → ℝ)
    (g : ℝ → ℝ → ℝ) (dphi : ℝ → ℝ → ℝ) (hg : ∀ p ∈ X.rows.zip y, g (score p.1 w) p.2 * c = dphi p.2 (score p.1 w)) :
    (tmulVec X (List.zipWith g (X.rows.map fun r => score r w) y) >>= fun gr =>
        addV (gr.map fun a => a * (c / (X.nrows : ℝ))) (penaltyGrad lambda X.nrows (List.ofFn w))) =
      .ok (List.ofFn (gradOf dphi lambda (X.rows.zip y) w)) := by
  have hl : (X.rows.zip y).length = X.nrows := by
    rw [List.length_zip, hy]; exact Nat.min_self _
  unfold tmulVec
  rw [if_pos (by simp [hy, DMat.nrows]), Res.bind_ok, cols_dot X hX]
  unfold addV
  rw [if_pos (by simp [penaltyGrad])]
  congr 1
  refine List.ext_getElem (by simp [penaltyGrad]) fun i h1 h2 => ?_
  simp only [List.getElem_zipWith, List.getElem_map, List.getElem_ofFn, penaltyGrad, gradOf, hl]
  congr 1
  rw [zip_map_right_self, ← mul_div_assoc, ← List.sum_map_mul_right]
  congr 2
  refine List.map_congr_left fun p hp => ?_
  rw [← hg p hp]
  ring

/-- What `HuberLoss::gradient` computes in the two cases. -/
theorem gradient_formula (lambda delta : ℝ) (hd : 0 ≤ delta) (X : DMat ℝ) (hX : X.WF) (y : List ℝ) (hy : y.length = X.nrows)
    (w : Fin X.ncols → ℝ)
    (h : ((X.rows.zip y).map fun p => (p.2 - score p.1 w) ^ 2).sum ≤ delta ^ 2 ∨
      ∀ p ∈ X.rows.zip y, delta ≤ |p.2 - score p.1 w|) :
    huberGradient lambda delta X y (List.ofFn w) = .ok (List.ofFn (gradOf (slope delta) lambda (X.rows.zip y) w)) := by
  have hc : norm2 ((X.rows.zip y).map fun p => p.2 - score p.1 w) ≤ delta ↔
      ((X.rows.zip y).map fun p => (p.2 - score p.1 w) ^ 2).sum ≤ delta ^ 2 := by
    unfold norm2
    rw [Real.sqrt_le_left hd, List.map_map]
    simp only [Function.comp_def, ← pow_two]
  unfold huberGradient
  have l1 : y.length = (X.rows.map fun r => score r w).length := by rw [hy, List.length_map]; rfl
  rw [scores_eq X hX w, Res.bind_ok]
  unfold subV
  rw [if_pos l1, Res.bind_ok, if_pos l1.symm, Res.bind_ok, zip_scores']
  by_cases hA : ((X.rows.zip y).map fun p => (p.2 - score p.1 w) ^ 2).sum ≤ delta ^ 2
  · rw [if_pos (hc.mpr hA)]
    have key := assemble lambda 1 X hX y hy w (fun s a => s - a) (slope delta) (by
      intro p hp
      have h1 : (p.2 - score p.1 w) ^ 2 ≤ delta ^ 2 := by
        refine le_trans (List.single_le_sum ?_ _ (List.mem_map.mpr ⟨p, hp, rfl⟩)) hA
        intro x hx
        obtain ⟨q, -, rfl⟩ := List.mem_map.mp hx
        exact sq_nonneg _
      have h2 := abs_le_of_sq_le_sq' h1 hd
      rw [(slope_cases delta p.2 (score p.1 w) hd).2.1 h2.1 h2.2, mul_one])
    rw [← key]
    cases tmulVec X (List.zipWith (fun s a => s - a) (X.rows.map fun r => score r w) y) with
    | ok v => simp only [Res.bind_ok, mul_one_div]
    | _ => rfl
  · rw [if_neg (fun h => hA (hc.mp h))]
    have hB := h.resolve_left hA
    have key := assemble lambda delta X hX y hy w (fun s a => signum (s - a)) (slope delta) (by
      intro p hp
      have h1 := hB p hp
      obtain ⟨s1, s2, s3⟩ := slope_cases delta p.2 (score p.1 w) hd
      unfold signum
      rcases lt_trichotomy (score p.1 w - p.2) 0 with h2 | h2 | h2
      · rw [if_neg (not_lt.mpr h2.le), if_pos h2, s3 (by rwa [abs_of_pos (by linarith)] at h1)]
        ring
      · have h3 : p.2 - score p.1 w = 0 := by linarith
        have h4 : delta = 0 := le_antisymm (by rw [h3, abs_zero] at h1; exact h1) hd
        rw [s3 (by rw [h3, h4]), h4]
        ring
      · rw [if_pos h2, s1 (by rw [abs_of_neg (by linarith)] at h1; linarith)]
        ring)
    rw [← key]
    have e : (List.zipWith (fun s a => s - a) (X.rows.map fun r => score r w) y).map signum =
        List.zipWith (fun s a => signum (s - a)) (X.rows.map fun r => score r w) y := by
      rw [List.map_zipWith]
    rw [e]
    cases tmulVec X (List.zipWith (fun s a => signum (s - a)) (X.rows.map fun r => score r w) y) with
    | ok v => simp only [Res.bind_ok]
    | _ => rfl

end Huber

open Huber

/-- **C114.** `HuberLoss::gradient` is the gradient of the documented mean Huber loss with ridge term whenever the whole vector of
residuals is no longer than `delta`, or no residual is shorter than `delta`. -/
theorem C114_gradient (lambda delta : ℝ) (hd : 0 ≤ delta) (X : DMat ℝ) (hX : X.WF) (y : List ℝ) (hy : y.length = X.nrows)
    (w : Fin X.ncols → ℝ)
    (h : ((X.rows.zip y).map fun p => (p.2 - score p.1 w) ^ 2).sum ≤ delta ^ 2 ∨
      ∀ p ∈ X.rows.zip y, delta ≤ |p.2 - score p.1 w|) :
    ∃ g, huberGradient lambda delta X y (List.ofFn w) = .ok (List.ofFn g) ∧
      IsGradient (fun v => meanLoss (fun a s => huber delta (a - s)) (X.rows.zip y) v + lambda * ridgeTerm X.nrows v) g w := by
  have hl : (X.rows.zip y).length = X.nrows := by
    rw [List.length_zip, hy]; exact Nat.min_self _
  refine ⟨_, gradient_formula lambda delta hd X hX y hy w h, ?_⟩
  have := isGradient_meanLoss _ _ (huber_deriv delta hd) lambda (X.rows.zip y) w
  rwa [hl] at this

/-- **C114.** On a single sample the two cases are exhaustive. -/
theorem C114_single (lambda delta : ℝ) (hd : 0 ≤ delta) (x : List ℝ) (y : ℝ) (w : Fin x.length → ℝ) :
    ∃ g, huberGradient lambda delta ⟨x.length, [x]⟩ [y] (List.ofFn w) = .ok (List.ofFn g) ∧
      IsGradient (fun v => huber delta (y - score x v) + lambda * ridgeTerm 1 v) g w := by
  have hX : (⟨x.length, [x]⟩ : DMat ℝ).WF := by intro r hr; simp at hr; rw [hr]
  have h := C114_gradient lambda delta hd ⟨x.length, [x]⟩ hX [y] rfl w (by
    simp only [List.zip_cons_cons, List.zip_nil_right, List.map_cons, List.map_nil, List.sum_cons, List.sum_nil, add_zero,
      List.mem_singleton, forall_eq]
    rcases le_total |y - score x w| delta with h | h
    · left; rw [← sq_abs]; exact pow_le_pow_left₀ (abs_nonneg _) h 2
    · exact Or.inr h)
  simpa [meanLoss, DMat.nrows] using h

/-- Two residuals of 2 below a threshold of 3, and one of 4 above it. -/
example : ([(([1] : List ℝ), (2 : ℝ)), ([1], 2)].map fun p => (p.2 - score p.1 (fun _ : Fin 1 => (0 : ℝ))) ^ 2).sum ≤ (3 : ℝ) ^ 2 ∧
    ∀ p ∈ [(([1] : List ℝ), (4 : ℝ))], (3 : ℝ) ≤ |p.2 - score p.1 (fun _ : Fin 1 => (0 : ℝ))| := by
  constructor <;> norm_num [score]

/-- **C114.** `gradient` is not the gradient of `evaluate`: on a single sample with a residual strictly between zero and the
threshold, they match only if its magnitude is one half. -/
theorem C114_not_of_evaluate (lambda delta : ℝ) (x : List ℝ) (y : ℝ) (w : Fin x.length → ℝ) (j : Fin x.length)
    (hj : x.getD j 0 ≠ 0) (h0 : y - score x w ≠ 0) (h1 : |y - score x w| < delta) (F : (Fin x.length → ℝ) → ℝ)
    (hF : ∀ v, huberEvaluate lambda delta ⟨x.length, [x]⟩ [y] (List.ofFn v) = .ok (F v)) (g : Fin x.length → ℝ)
    (hg : huberGradient lambda delta ⟨x.length, [x]⟩ [y] (List.ofFn w) = .ok (List.ofFn g)) :
    IsGradient F g w ↔ |y - score x w| = 1 / 2 := by
  have hX : (⟨x.length, [x]⟩ : DMat ℝ).WF := by intro r hr; simp at hr; rw [hr]
  have hd : 0 ≤ delta := le_trans (abs_nonneg _) h1.le
  have hg' := gradient_formula lambda delta hd ⟨x.length, [x]⟩ hX [y] rfl w (by
    left
    simp only [List.zip_cons_cons, List.zip_nil_right, List.map_cons, List.map_nil, List.sum_cons, List.sum_nil, add_zero]
    rw [← sq_abs]; exact pow_le_pow_left₀ (abs_nonneg _) h1.le 2)
  rw [hg] at hg'
  have eg : g = gradOf (slope delta) lambda [(x, y)] w := List.ofFn_injective (by injection hg')
  obtain ⟨sg, hsg, hs1⟩ : ∃ sg : ℝ, |y - score x w| = sg * (y - score x w) ∧ sg ^ 2 = 1 := by
    rcases lt_or_gt_of_ne h0 with h | h
    · exact ⟨-1, by rw [abs_of_neg h]; ring, by norm_num⟩
    · exact ⟨1, by rw [abs_of_pos h]; ring, by norm_num⟩
  have hcont : Continuous fun v : Fin x.length → ℝ => y - score x v := by
    unfold score; fun_prop
  have hnear : ∀ᶠ v in nhds w, |y - score x v| = sg * (y - score x v) ∧ |y - score x v| < delta := by
    have e2 : ∀ᶠ v in nhds w, |y - score x v| < delta := (continuous_abs.comp hcont).continuousAt.eventually_lt continuousAt_const h1
    have e1 : ∀ᶠ v in nhds w, 0 < sg * (y - score x v) := by
      refine ContinuousAt.eventually_lt continuousAt_const (continuous_const.mul hcont).continuousAt ?_
      rw [← hsg]; exact abs_pos.mpr h0
    filter_upwards [e1, e2] with v hv1 hv2
    refine ⟨?_, hv2⟩
    have : |sg * (y - score x v)| = |y - score x v| := by
      rw [abs_mul]
      have : |sg| = 1 := by
        rw [← sq_eq_sq₀ (abs_nonneg _) (by norm_num), sq_abs, hs1]; norm_num
      rw [this, one_mul]
    rw [← this, abs_of_pos hv1]
  have hFv : ∀ᶠ v in nhds w, F v = meanLoss (fun a s => 1 / 2 * (sg * (a - s))) [(x, y)] v + lambda * ridgeTerm 1 v := by
    filter_upwards [hnear] with v hv
    have h := hF v
    unfold huberEvaluate at h
    rw [scores_eq ⟨x.length, [x]⟩ hX v] at h
    simp only [List.map_cons, List.map_nil, Res.bind_ok, subV, List.length_cons, List.length_nil, if_true, List.zipWith_cons_cons,
      List.zipWith_nil_right, norm2, List.sum_cons, List.sum_nil, add_zero, Real.sqrt_mul_self_eq_abs, DMat.nrows,
      penalty_eq, if_pos hv.2.le] at h
    injection h with h
    rw [← h, hv.1]
    simp [meanLoss]
  have hG : IsGradient F (gradOf (fun _ _ => -(sg / 2)) lambda [(x, y)] w) w := by
    have := isGradient_meanLoss (d := x.length) (fun a s => 1 / 2 * (sg * (a - s))) (fun _ _ => -(sg / 2)) (by
      intro a s
      have := (((hasDerivAt_id s).const_sub a).const_mul sg).const_mul (1 / 2)
      refine this.congr_deriv (by ring)) lambda [(x, y)] w
    exact HasFDerivAt.congr_of_eventuallyEq this hFv
  have hslope : slope delta y (score x w) = score x w - y :=
    (slope_cases delta y (score x w) hd).2.1 (abs_le.mp h1.le).1 (abs_le.mp h1.le).2
  have hval : |y - score x w| = 1 / 2 ↔ score x w - y = -(sg / 2) := by
    rw [hsg]
    constructor
    · intro h
      have : sg * (sg * (y - score x w)) = sg * (1 / 2) := by rw [h]
      have e : sg * (sg * (y - score x w)) = sg ^ 2 * (y - score x w) := by ring
      rw [e, hs1] at this
      linarith
    · intro h
      have : y - score x w = sg / 2 := by linarith
      rw [this]
      have e : sg * (sg / 2) = sg ^ 2 / 2 := by ring
      rw [e, hs1]
  rw [hval]
  constructor
  · intro h
    have hu := HasFDerivAt.unique h hG
    have hc := congrArg (fun L : (Fin x.length → ℝ) →L[ℝ] ℝ => L (Pi.single j 1)) hu
    simp only [ContinuousLinearMap.sum_apply, ContinuousLinearMap.smul_apply, ContinuousLinearMap.proj_apply, smul_eq_mul,
      Pi.single_apply, mul_ite, mul_one, mul_zero, Finset.sum_ite_eq', Finset.mem_univ, if_true] at hc
    rw [eg] at hc
    simp only [gradOf, List.map_cons, List.map_nil, List.sum_cons, List.sum_nil, add_zero, List.length_cons, List.length_nil,
      hslope] at hc
    have hc' : (score x w - y) * x.getD j 0 = -(sg / 2) * x.getD j 0 := by
      simpa using hc
    exact mul_right_cancel₀ hj hc'
  · intro h
    have : g = gradOf (fun _ _ => -(sg / 2)) lambda [(x, y)] w := by
      rw [eg]
      funext i
      simp only [gradOf, List.map_cons, List.map_nil, hslope, h]
    rw [this]
    exact hG

/-- A residual of 2 under a threshold of 3. -/
example : ([1] : List ℝ).getD 0 0 ≠ 0 ∧ (2 : ℝ) - score [1] (fun _ : Fin 1 => (0 : ℝ)) ≠ 0 ∧
    |(2 : ℝ) - score [1] (fun _ : Fin 1 => (0 : ℝ))| < 3 ∧ |(2 : ℝ) - score [1] (fun _ : Fin 1 => (0 : ℝ))| ≠ 1 / 2 := by
  refine ⟨by norm_num, by norm_num [score], by norm_num [score], by norm_num [score]⟩

/-- With residuals on both sides of the threshold the result is not the gradient: two samples with feature 1 and
residuals 1 and 4 and a threshold of 2 give the slope of two residuals beyond the threshold. -/
example : huberGradient 0 2 ⟨1, [[1], [1]]⟩ [1, 4] [0] = .ok [-2] ∧
    IsGradient (fun v : Fin 1 → ℝ => meanLoss (fun a s => huber 2 (a - s)) [([1], 1), ([1], 4)] v) (fun _ => -(3 / 2)) (fun _ => 0) := by
  constructor
  · have hn : ¬ norm2 [1, 4] ≤ 2 := by
      unfold norm2
      rw [Real.sqrt_le_left (by norm_num)]
      norm_num
    norm_num [huberGradient, mulVec, subV, tmulVec, addV, penaltyGrad, dotL, DMat.cols, DMat.col, DMat.nrows, Res.bind_ok, hn, signum,
      List.range_succ, List.filterMap_cons]
  · have h := isGradient_meanLoss (d := 1) _ _ (huber_deriv 2 (by norm_num)) 0 [([1], 1), ([1], 4)] (fun _ => 0)
    have e : gradOf (Huber.slope 2) 0 [([1], 1), ([1], 4)] (fun _ : Fin 1 => (0 : ℝ)) = fun _ => -(3 / 2) := by
      funext j
      fin_cases j
      norm_num [gradOf, Huber.slope, score]
    rw [e] at h
    simpa using h

end OpenML
