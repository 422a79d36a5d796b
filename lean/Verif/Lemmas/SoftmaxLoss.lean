import Verif.Lemmas.Loss
import Mathlib.Analysis.SpecialFunctions.ExpDeriv

/-!
# Lemmas about the softmax loss
-/

set_option linter.unusedSectionVars false

namespace OpenML.Loss

open Spec

theorem cols_ofRows {k : Nat} {β : Type} (l : List β) (z : β → Fin k → ℝ) :
    DMat.cols ⟨k, l.map fun b => List.ofFn (z b)⟩ = List.ofFn fun c : Fin k => l.map fun b => z b c := by
  refine List.ext_getElem (by simp [DMat.cols]) fun i h1 h2 => ?_
  have hi : i < k := by simpa [DMat.cols] using h1
  simp only [DMat.cols, DMat.col, List.getElem_map, List.getElem_range, List.getElem_ofFn]
  have h3 : ∀ l : List β, (l.map fun b => List.ofFn (z b)).filterMap (·[i]?) = l.map fun b => z b ⟨i, hi⟩ := by
    intro l
    induction l with
    | nil => rfl
    | cons r l ih => simp [hi, ih]
  exact h3 l

theorem cols_toDMat {d k : Nat} (w : Fin d → Fin k → ℝ) :
    (toDMat w).cols = List.ofFn fun c : Fin k => List.ofFn fun f => w f c := by
  have h := cols_ofRows (List.finRange d) w
  have e : toDMat w = ⟨k, (List.finRange d).map fun b => List.ofFn (w b)⟩ := by
    simp [toDMat, List.ofFn_eq_map]
  rw [e, h]
  congr 1
  funext c
  rw [List.ofFn_eq_map]

/-- The score of class `c`. -/
noncomputable abbrev cscore {d k : Nat} (w : Fin d → Fin k → ℝ) (r : List ℝ) (c : Fin k) : ℝ := score r fun f => w f c

theorem mulMat_eq {k : Nat} (X : DMat ℝ) (hX : X.WF) (w : Fin X.ncols → Fin k → ℝ) :
    mulMat X (toDMat w) = .ok ⟨k, X.rows.map fun r => List.ofFn (cscore w r)⟩ := by
  unfold mulMat
  rw [if_pos (by simp [toDMat, DMat.nrows]), cols_toDMat]
  congr 2
  refine List.map_congr_left fun r hr => ?_
  rw [List.map_ofFn]
  congr 1
  funext c
  exact dotL_eq_sum r _ (hX r hr)

theorem expScores_eq {k : Nat} (hk : 0 < k) (X : DMat ℝ) (hn : X.rows ≠ []) (w : Fin X.ncols → Fin k → ℝ) :
    ∃ M : ℝ, expScores ⟨k, X.rows.map fun r => List.ofFn (cscore w r)⟩ =
      .ok (X.rows.map fun r => List.ofFn fun c => Real.exp (cscore w r c - M)) := by
  have hne : (X.rows.map fun r => List.ofFn (cscore w r)).flatten ≠ [] := by
    cases hr : X.rows with
    | nil => exact absurd hr hn
    | cons r rows =>
      intro h
      have := congrArg List.length h
      simp at this
      omega
  obtain ⟨M, hM, -⟩ := Analytic.maxLine_spec _ hne
  refine ⟨M, ?_⟩
  unfold expScores
  rw [hM, Res.bind_ok, List.map_map]
  congr 1
  refine List.map_congr_left fun r _ => ?_
  simp only [Function.comp_apply, List.map_ofFn]
  rfl

theorem classIndex_nat (c : Nat) : classIndex (c : ℝ) = .ok c := by
  unfold classIndex
  rw [if_pos (lt_of_lt_of_le (by norm_num) (Nat.cast_nonneg c)), Nat.floor_natCast]

/-- Labels as the numbers passed to the loss. -/
def labelVec {k : Nat} (labels : List (Fin k)) : List ℝ := labels.map fun c => ((c.val : Nat) : ℝ)

theorem selectLabel_eq {k : Nat} {β : Type} (rows : List β) (e : β → Fin k → ℝ) (labels : List (Fin k))
    (h : labels.length = rows.length) :
    selectLabel (rows.map fun r => List.ofFn (e r)) (labelVec labels) = .ok ((rows.zip labels).map fun p => e p.1 p.2) := by
  induction rows generalizing labels with
  | nil => rfl
  | cons r rows ih =>
    cases labels with
    | nil => simp at h
    | cons c labels =>
      have h1 := ih labels (by simpa using h)
      simp only [labelVec] at h1
      simp [labelVec, selectLabel, classIndex_nat, h1]

theorem subtractLabel_eq {k : Nat} {β : Type} (rows : List β) (e : β → Fin k → ℝ) (labels : List (Fin k))
    (h : labels.length = rows.length) :
    subtractLabel (rows.map fun r => List.ofFn (e r)) (labelVec labels) =
      .ok ((rows.zip labels).map fun p => List.ofFn fun c => e p.1 c - if c = p.2 then 1 else 0) := by
  induction rows generalizing labels with
  | nil => rfl
  | cons r rows ih =>
    cases labels with
    | nil => simp at h
    | cons l labels =>
      have h1 := ih labels (by simpa using h)
      simp only [labelVec] at h1
      have h2 : (List.ofFn (e r)).set l.val (e r l - 1) = List.ofFn fun c => e r c - if c = l then 1 else 0 := by
        refine List.ext_getElem (by simp) fun i hi1 hi2 => ?_
        rw [List.getElem_set]
        simp only [List.getElem_ofFn]
        by_cases hil : l.val = i
        · subst hil
          simp
        · rw [if_neg hil, if_neg (fun hc => hil (by rw [← hc]))]
          ring
      simp [labelVec, subtractLabel, classIndex_nat, h1, h2]

theorem log_ratio {k : Nat} (s : Fin k → ℝ) (M : ℝ) (l : Fin k) :
    Real.log (Real.exp (s l - M) / ∑ c, Real.exp (s c - M)) = s l - Real.log (∑ c, Real.exp (s c)) := by
  have hpos : 0 < ∑ c, Real.exp (s c) := Finset.sum_pos (fun c _ => Real.exp_pos _) ⟨l, Finset.mem_univ l⟩
  have h1 : ∑ c, Real.exp (s c - M) = (∑ c, Real.exp (s c)) / Real.exp M := by
    rw [Finset.sum_div]
    exact Finset.sum_congr rfl fun c _ => Real.exp_sub _ _
  rw [h1, Real.exp_sub, div_div_div_cancel_right₀ (Real.exp_pos M).ne', Real.log_div (Real.exp_pos _).ne' hpos.ne', Real.log_exp]

theorem gramSum_eq {d k : Nat} (w : Fin d → Fin k → ℝ) : gramSum (toDMat w) = ∑ f, (∑ c, w f c) ^ 2 := by
  unfold gramSum
  rw [cols_toDMat, List.map_ofFn, List.sum_ofFn]
  simp only [Function.comp_apply, List.map_ofFn, List.sum_ofFn]
  have h : ∀ a b : Fin k, dotL (List.ofFn fun f => w f a) (List.ofFn fun f => w f b) = ∑ f, w f a * w f b := by
    intro a b
    rw [dotL_eq_sum _ (fun f => w f b) (by simp)]
    unfold score
    refine Finset.sum_congr rfl fun j _ => ?_
    simp [List.getD_eq_getElem?_getD]
  simp only [h]
  rw [Finset.sum_congr rfl fun a _ => Finset.sum_comm, Finset.sum_comm]
  refine Finset.sum_congr rfl fun f _ => ?_
  rw [pow_two, Finset.sum_mul_sum]

theorem softmaxEvaluate_eq {k : Nat} (hk : 0 < k) (lambda : ℝ) (X : DMat ℝ) (hX : X.WF) (hn : X.rows ≠ []) (labels : List (Fin k))
    (hl : labels.length = X.nrows) (w : Fin X.ncols → Fin k → ℝ) :
    softmaxEvaluate lambda X (labelVec labels) (toDMat w) =
      .ok (((X.rows.zip labels).map (classLoss w)).sum / X.nrows + lambda * rowSumTerm X.nrows w) := by
  obtain ⟨M, hM⟩ := expScores_eq hk X hn w
  unfold softmaxEvaluate
  rw [mulMat_eq X hX w, Res.bind_ok, hM, Res.bind_ok, selectLabel_eq _ _ _ hl, Res.bind_ok, gramSum_eq]
  dsimp only
  congr 2
  · congr 1
    have : ∀ rows : List (List ℝ), ∀ labels : List (Fin k), labels.length = rows.length →
        -(List.zipWith (fun a s => Real.log (a / s))
          ((rows.zip labels).map fun p => Real.exp (cscore w p.1 p.2 - M))
          ((rows.map fun r => List.ofFn fun c => Real.exp (cscore w r c - M)).map List.sum)).sum =
        ((rows.zip labels).map (classLoss w)).sum := by
      intro rows
      induction rows with
      | nil => intro _ _; simp
      | cons r rows ih =>
        intro labels h
        cases labels with
        | nil => simp at h
        | cons l labels =>
          have := ih labels (by simpa using h)
          simp only [List.zip_cons_cons, List.map_cons, List.zipWith_cons_cons, List.sum_cons, neg_add_rev] at this ⊢
          rw [this, List.sum_ofFn, log_ratio (cscore w r) M l, classLoss]
          ring
    exact this X.rows labels hl
  · unfold rowSumTerm
    ring

/-- What `SoftmaxLoss::gradient` returns. -/
noncomputable def softmaxGrad {d k : Nat} (lambda : ℝ) (l : List (List ℝ × Fin k)) (n : Nat) (w : Fin d → Fin k → ℝ) (f : Fin d)
    (c : Fin k) : ℝ :=
  (l.map fun p => (Real.exp (cscore w p.1 c) / ∑ b, Real.exp (cscore w p.1 b) - if c = p.2 then 1 else 0) *
    p.1.getD f 0).sum / n + w f c / n * lambda

theorem softmaxGradient_eq {k : Nat} (hk : 0 < k) (lambda : ℝ) (X : DMat ℝ) (hX : X.WF) (hn : X.rows ≠ []) (labels : List (Fin k))
    (hl : labels.length = X.nrows) (w : Fin X.ncols → Fin k → ℝ) :
    softmaxGradient lambda X (labelVec labels) (toDMat w) =
      .ok (toDMat (softmaxGrad lambda (X.rows.zip labels) X.nrows w)) := by
  obtain ⟨M, hM⟩ := expScores_eq hk X hn w
  unfold softmaxGradient
  rw [mulMat_eq X hX w, Res.bind_ok, hM, Res.bind_ok]
  dsimp only
  have hnorm : (X.rows.map fun r => List.ofFn fun c => Real.exp (cscore w r c - M)).map (fun r => r.map fun a => a / r.sum) =
      X.rows.map fun r => List.ofFn fun c => Real.exp (cscore w r c) / ∑ b, Real.exp (cscore w r b) := by
    rw [List.map_map]
    refine List.map_congr_left fun r _ => ?_
    simp only [Function.comp_apply, List.map_ofFn, List.sum_ofFn]
    congr 1
    funext c
    have h1 : ∑ c, Real.exp (cscore w r c - M) = (∑ c, Real.exp (cscore w r c)) / Real.exp M := by
      rw [Finset.sum_div]
      exact Finset.sum_congr rfl fun c _ => Real.exp_sub _ _
    simp only [Function.comp_apply]
    rw [h1, Real.exp_sub, div_div_div_cancel_right₀ (Real.exp_pos M).ne']
  rw [hnorm, subtractLabel_eq _ _ _ hl, Res.bind_ok]
  have hncol : (toDMat w).ncols = k := rfl
  rw [hncol, cols_ofRows]
  unfold toDMat
  congr 2
  refine List.ext_getElem (by simp [DMat.cols]) fun i h1 h2 => ?_
  have hi : i < X.ncols := by simpa using h2
  simp only [List.getElem_zipWith, List.getElem_map, List.getElem_ofFn]
  refine List.ext_getElem (by simp) fun j h3 h4 => ?_
  simp only [List.getElem_zipWith, List.getElem_map, List.getElem_ofFn, softmaxGrad]
  congr 2
  have hc : X.cols[i]'(by simpa [DMat.cols] using hi) = X.rows.filterMap (·[i]?) := by
    simp [DMat.cols, DMat.col]
  refine (congrArg (fun q => dotL q _) hc).trans ?_
  have := col_dot X.rows ((X.rows.zip labels).map fun p : List ℝ × Fin k =>
    Real.exp (cscore w p.1 ⟨j, by simpa using h4⟩) / ∑ b, Real.exp (cscore w p.1 b) -
      if (⟨j, by simpa using h4⟩ : Fin k) = p.2 then 1 else 0) (⟨i, hi⟩ : Fin X.ncols) hX
  simp only at this
  rw [this]
  congr 1
  have hz : ∀ (rows : List (List ℝ)) (labels : List (Fin k)) (z : List ℝ × Fin k → ℝ) (q : List ℝ → ℝ → ℝ),
      List.zipWith q rows ((rows.zip labels).map z) = (rows.zip labels).map fun p => q p.1 (z p) := by
    intro rows
    induction rows with
    | nil => intro _ _ _; rfl
    | cons r rows ih => intro labels z q; cases labels <;> simp [ih]
  rw [hz]

/-- The score of a class as a continuous linear function of the weight matrix. -/
noncomputable def cscoreCLM {d k : Nat} (r : List ℝ) (c : Fin k) : (Fin d → Fin k → ℝ) →L[ℝ] ℝ :=
  (scoreCLM r).comp (ContinuousLinearMap.pi fun f => (ContinuousLinearMap.proj c : (Fin k → ℝ) →L[ℝ] ℝ).comp
    (ContinuousLinearMap.proj f : (Fin d → Fin k → ℝ) →L[ℝ] (Fin k → ℝ)))

theorem cscoreCLM_apply {d k : Nat} (r : List ℝ) (c : Fin k) (w : Fin d → Fin k → ℝ) : cscoreCLM r c w = cscore w r c := by
  simp only [cscoreCLM, ContinuousLinearMap.comp_apply, scoreCLM_apply]
  rfl

theorem hasFDerivAt_cscore {d k : Nat} (r : List ℝ) (c : Fin k) (w : Fin d → Fin k → ℝ) :
    HasFDerivAt (fun v : Fin d → Fin k → ℝ => cscore v r c) (cscoreCLM r c) w := by
  have h := (cscoreCLM (d := d) r c).hasFDerivAt (x := w)
  exact h.congr_of_eventuallyEq (Filter.Eventually.of_forall fun v => (cscoreCLM_apply r c v).symm)

theorem hasFDerivAt_classLoss {d k : Nat} (p : List ℝ × Fin k) (w : Fin d → Fin k → ℝ) :
    HasFDerivAt (fun v : Fin d → Fin k → ℝ => classLoss v p)
      (∑ c, (Real.exp (cscore w p.1 c) / ∑ b, Real.exp (cscore w p.1 b) - if c = p.2 then 1 else 0) • cscoreCLM p.1 c) w := by
  have hpos : 0 < ∑ c, Real.exp (cscore w p.1 c) := Finset.sum_pos (fun c _ => Real.exp_pos _) ⟨p.2, Finset.mem_univ _⟩
  have h1 : HasFDerivAt (fun v : Fin d → Fin k → ℝ => ∑ c, Real.exp (cscore v p.1 c))
      (∑ c, Real.exp (cscore w p.1 c) • cscoreCLM p.1 c) w :=
    HasFDerivAt.fun_sum fun c _ => (hasFDerivAt_cscore p.1 c w).exp
  have h2 := (h1.log hpos.ne').sub (hasFDerivAt_cscore p.1 p.2 w)
  refine h2.congr_fderiv ?_
  refine ContinuousLinearMap.ext fun v => ?_
  simp only [sum_apply, ContinuousLinearMap.sub_apply, smul_apply, smul_eq_mul, sub_mul, Finset.sum_sub_distrib, ite_mul, one_mul,
    zero_mul, Finset.sum_ite_eq', Finset.mem_univ, if_true]
  congr 1
  rw [Finset.mul_sum]
  refine Finset.sum_congr rfl fun c _ => ?_
  rw [div_eq_inv_mul, mul_assoc]

theorem hasFDerivAt_rowSum {d k : Nat} (w : Fin d → Fin k → ℝ) :
    HasFDerivAt (fun v : Fin d → Fin k → ℝ => ∑ f, (∑ c, v f c) ^ 2)
      (∑ f, ∑ c, (2 * ∑ b, w f b) • ((ContinuousLinearMap.proj c : (Fin k → ℝ) →L[ℝ] ℝ).comp
        (ContinuousLinearMap.proj f : (Fin d → Fin k → ℝ) →L[ℝ] (Fin k → ℝ)))) w := by
  refine HasFDerivAt.fun_sum fun f _ => ?_
  have h1 : HasFDerivAt (fun v : Fin d → Fin k → ℝ => ∑ c, v f c)
      (∑ c, ((ContinuousLinearMap.proj c : (Fin k → ℝ) →L[ℝ] ℝ).comp
        (ContinuousLinearMap.proj f : (Fin d → Fin k → ℝ) →L[ℝ] (Fin k → ℝ)))) w :=
    HasFDerivAt.fun_sum fun c _ => ((ContinuousLinearMap.proj c : (Fin k → ℝ) →L[ℝ] ℝ).comp
        (ContinuousLinearMap.proj f : (Fin d → Fin k → ℝ) →L[ℝ] (Fin k → ℝ))).hasFDerivAt
  have h2 : HasDerivAt (fun t : ℝ => t ^ 2) (2 * ∑ b, w f b) (∑ b, w f b) := by simpa using hasDerivAt_pow 2 (∑ b, w f b)
  have h3 := h2.comp_hasFDerivAt w h1
  rw [Finset.smul_sum] at h3
  exact h3

theorem isMatrixGradient_softmax {d k : Nat} (lambda : ℝ) (l : List (List ℝ × Fin k)) (n : Nat) (w : Fin d → Fin k → ℝ) :
    IsMatrixGradient (fun v => (l.map (classLoss v)).sum / n + lambda * rowSumTerm n v)
      (fun f c => softmaxGrad lambda l n w f c + lambda / n * (∑ b, w f b - w f c)) w := by
  unfold IsMatrixGradient
  have h0 : HasFDerivAt (fun v : Fin d → Fin k → ℝ => (l.map (classLoss v)).sum)
      ((l.map fun p => ∑ c, (Real.exp (cscore w p.1 c) / ∑ b, Real.exp (cscore w p.1 b) - if c = p.2 then 1 else 0) •
        (cscoreCLM p.1 c : (Fin d → Fin k → ℝ) →L[ℝ] ℝ)).sum) w := by
    induction l with
    | nil => simpa using hasFDerivAt_const (0 : ℝ) w
    | cons p l ih =>
      simp only [List.map_cons, List.sum_cons]
      exact (hasFDerivAt_classLoss p w).add ih
  have h1 := (h0.mul_const ((n : ℝ)⁻¹)).add (((hasFDerivAt_rowSum w).mul_const ((2 * (n : ℝ))⁻¹)).const_mul lambda)
  refine (h1.congr_fderiv ?_).congr_of_eventuallyEq (Filter.Eventually.of_forall fun v => ?_)
  · ext v
    have hsum : ∀ (L : List ((Fin d → Fin k → ℝ) →L[ℝ] ℝ)), L.sum v = (L.map fun b => b v).sum := by
      intro L
      induction L with
      | nil => simp
      | cons b L ih => simp [ih]
    simp only [sum_apply, add_apply, smul_apply,
      ContinuousLinearMap.comp_apply, ContinuousLinearMap.proj_apply, smul_eq_mul, hsum, List.map_map, softmaxGrad]
    have h2 : ((l.map ((fun b : (Fin d → Fin k → ℝ) →L[ℝ] ℝ => b v) ∘ fun p => ∑ c, (Real.exp (cscore w p.1 c) /
        ∑ b, Real.exp (cscore w p.1 b) - if c = p.2 then 1 else 0) • (cscoreCLM p.1 c : (Fin d → Fin k → ℝ) →L[ℝ] ℝ)))).sum =
        ∑ f, ∑ c, (l.map fun p => (Real.exp (cscore w p.1 c) / ∑ b, Real.exp (cscore w p.1 b) - if c = p.2 then 1 else 0) *
          p.1.getD f 0).sum * v f c := by
      clear h0 h1
      induction l with
      | nil => simp
      | cons p l ih =>
        simp only [List.map_cons, List.sum_cons, add_mul, Finset.sum_add_distrib, ih]
        congr 1
        simp only [Function.comp_apply, sum_apply, smul_apply, smul_eq_mul,
          cscoreCLM_apply]
        rw [Finset.sum_comm]
        refine Finset.sum_congr rfl fun c _ => ?_
        unfold cscore score
        rw [Finset.mul_sum]
        exact Finset.sum_congr rfl fun f _ => by ring
    rw [h2, Finset.mul_sum, Finset.mul_sum, Finset.mul_sum, ← Finset.sum_add_distrib]
    refine Finset.sum_congr rfl fun f _ => ?_
    rw [Finset.mul_sum, Finset.mul_sum, Finset.mul_sum, ← Finset.sum_add_distrib]
    refine Finset.sum_congr rfl fun c _ => ?_
    rw [mul_inv]
    ring
  · simp only [rowSumTerm, div_eq_mul_inv, Pi.add_apply]

end OpenML.Loss
