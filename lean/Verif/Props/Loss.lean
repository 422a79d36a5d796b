import Verif.Lemmas.SoftmaxLoss
import Mathlib.Tactic.FinCases

/-!
# C45, C78, C79: the gradients of the losses
-/

set_option linter.unusedSectionVars false

namespace OpenML

open Spec Loss

/-- C45: `MSE::evaluate` returns half the mean squared residual plus lambda times the ridge term, and `MSE::gradient` its
gradient, for all weights. -/
theorem C45_mse (lambda : ℝ) (X : DMat ℝ) (hX : X.WF) (_hn : X.rows ≠ []) (y : List ℝ) (hy : y.length = X.nrows)
    (w : Fin X.ncols → ℝ) :
    ∃ F g,
      (∀ v, mseEvaluate lambda X y (List.ofFn v) = .ok (F v)) ∧
      (∀ v, F v = meanLoss halfSquare (X.rows.zip y) v + lambda * ridgeTerm X.nrows v) ∧
      mseGradient lambda X y (List.ofFn w) = .ok (List.ofFn g) ∧ IsGradient F g w := by
  have hl : (X.rows.zip y).length = X.nrows := by
    rw [List.length_zip, hy]; exact Nat.min_self _
  refine ⟨_, _, mseEvaluate_eq lambda X hX y hy, fun _ => rfl, mseGradient_eq lambda X hX y hy w, ?_⟩
  have := isGradient_meanLoss halfSquare (fun a s => s - a) halfSquare_deriv lambda (X.rows.zip y) w
  rw [hl] at this
  exact this

/-- C45: `LogLoss::evaluate` returns the mean negative log likelihood under the sigmoid of the score plus lambda times the ridge
term, and `LogLoss::gradient` its gradient, for all weights. -/
theorem C45_log (lambda : ℝ) (X : DMat ℝ) (hX : X.WF) (_hn : X.rows ≠ []) (y : List ℝ) (hy : y.length = X.nrows)
    (w : Fin X.ncols → ℝ) :
    ∃ F g,
      (∀ v, logEvaluate lambda X y (List.ofFn v) = .ok (F v)) ∧
      (∀ v, F v = meanLoss crossEntropy (X.rows.zip y) v + lambda * ridgeTerm X.nrows v) ∧
      logGradient lambda X y (List.ofFn w) = .ok (List.ofFn g) ∧ IsGradient F g w := by
  have hl : (X.rows.zip y).length = X.nrows := by
    rw [List.length_zip, hy]; exact Nat.min_self _
  refine ⟨_, _, logEvaluate_eq lambda X hX y hy, fun _ => rfl, logGradient_eq lambda X hX y hy w, ?_⟩
  have := isGradient_meanLoss crossEntropy (fun a s => Real.sigmoid s - a) crossEntropy_deriv lambda (X.rows.zip y) w
  rw [hl] at this
  exact this

/-- Two samples, of which one has a non-zero residual. -/
example : mseEvaluate (1 : ℚ) ⟨2, [[1, 2], [0, 1]]⟩ [4, 1] [1, 1] = .ok (3 / 4) ∧
    mseGradient (1 : ℚ) ⟨2, [[1, 2], [0, 1]]⟩ [4, 1] [1, 1] = .ok [0, -1 / 2] := by decide +kernel

/-- C45: `SoftmaxLoss::evaluate` returns the mean negative log likelihood of the labels plus lambda times a term of the row sums
of the weights, and `SoftmaxLoss::gradient` returns its gradient exactly if lambda is zero or each weight equals the sum of its
row (so with two or more classes: each weight is zero). -/
theorem C45_softmax {k : Nat} (hk : 0 < k) (lambda : ℝ) (X : DMat ℝ) (hX : X.WF) (hn : X.rows ≠ []) (labels : List (Fin k))
    (hl : labels.length = X.nrows) (w : Fin X.ncols → Fin k → ℝ) :
    ∃ F g,
      (∀ v, softmaxEvaluate lambda X (labels.map fun c => ((c.val : Nat) : ℝ)) (toDMat v) = .ok (F v)) ∧
      (∀ v, F v = ((X.rows.zip labels).map (classLoss v)).sum / X.nrows + lambda * rowSumTerm X.nrows v) ∧
      softmaxGradient lambda X (labels.map fun c => ((c.val : Nat) : ℝ)) (toDMat w) = .ok (toDMat g) ∧
      (IsMatrixGradient F g w ↔ lambda = 0 ∨ ∀ f c, ∑ b, w f b = w f c) := by
  refine ⟨_, _, softmaxEvaluate_eq hk lambda X hX hn labels hl, fun _ => rfl, softmaxGradient_eq hk lambda X hX hn labels hl w, ?_⟩
  have hg := isMatrixGradient_softmax lambda (X.rows.zip labels) X.nrows w
  have hpos : (X.nrows : ℝ) ≠ 0 := by
    have : X.nrows ≠ 0 := fun h => hn (List.eq_nil_of_length_eq_zero h)
    exact_mod_cast this
  constructor
  · intro h
    have hu := HasFDerivAt.unique hg h
    by_contra hne
    push Not at hne
    obtain ⟨h0, f, c, hfc⟩ := hne
    have h1 := congrArg (fun L : (Fin X.ncols → Fin k → ℝ) →L[ℝ] ℝ => L (Pi.single f (Pi.single c 1))) hu
    simp only [sum_apply, smul_apply, ContinuousLinearMap.comp_apply, ContinuousLinearMap.proj_apply, smul_eq_mul] at h1
    have h2 : ∀ q : Fin X.ncols → Fin k → ℝ,
        ∑ a, ∑ b, q a b * (Pi.single f (Pi.single c 1) : Fin X.ncols → Fin k → ℝ) a b = q f c := by
      intro q
      rw [Finset.sum_eq_single f, Finset.sum_eq_single c]
      · simp
      · intro b _ hb; simp [hb]
      · intro hb; exact absurd (Finset.mem_univ _) hb
      · intro a _ ha; simp [ha]
      · intro ha; exact absurd (Finset.mem_univ _) ha
    rw [h2 fun f c => softmaxGrad lambda (X.rows.zip labels) X.nrows w f c + lambda / X.nrows * (∑ b, w f b - w f c),
      h2 fun f c => softmaxGrad lambda (X.rows.zip labels) X.nrows w f c] at h1
    have h3 : lambda / X.nrows * (∑ b, w f b - w f c) = 0 := by linarith
    rcases mul_eq_zero.mp h3 with h4 | h4
    · exact (div_ne_zero h0 hpos) h4
    · exact hfc (by linarith)
  · intro h
    have e : (fun f c => softmaxGrad lambda (X.rows.zip labels) X.nrows w f c + lambda / X.nrows * (∑ b, w f b - w f c)) =
        softmaxGrad lambda (X.rows.zip labels) X.nrows w := by
      funext f c
      rcases h with h | h
      · rw [h]; simp
      · rw [h f c]; simp
    rw [e] at hg
    exact hg

/-- Two classes, one feature with weights 1 and 2: with lambda = 1 the returned gradient is wrong. -/
example : ∃ F g, softmaxGradient 1 ⟨1, [[1]]⟩ [0] (toDMat fun (_ : Fin 1) (c : Fin 2) => if c = 0 then 1 else 2) = .ok (toDMat g) ∧
    (∀ v : Fin 1 → Fin 2 → ℝ, softmaxEvaluate 1 ⟨1, [[1]]⟩ [0] (toDMat v) = .ok (F v)) ∧
    ¬ IsMatrixGradient F g fun (_ : Fin 1) (c : Fin 2) => if c = 0 then 1 else 2 := by
  obtain ⟨F, g, h1, -, h2, h3⟩ := C45_softmax (k := 2) (by norm_num) 1 ⟨1, [[1]]⟩ (by decide) (by simp) [0] rfl
    (fun (_ : Fin 1) (c : Fin 2) => if c = 0 then 1 else 2)
  refine ⟨F, g, by simpa using h2, by simpa using h1, fun h => ?_⟩
  rcases h3.mp h with h4 | h4
  · norm_num at h4
  · have := h4 0 0
    norm_num [Fin.sum_univ_two] at this

theorem exists_ofFn {n : Nat} (w : List ℝ) (h : w.length = n) : ∃ f : Fin n → ℝ, w = List.ofFn f := by
  subst h
  exact ⟨w.get, (List.ofFn_get w).symm⟩

theorem evaluate_length {X : DMat ℝ} {w : List ℝ} {β : Type} {f : List ℝ → Res β} {b : β} (h : (mulVec X w >>= f) = .ok b) :
    w.length = X.ncols := by
  by_contra hne
  unfold mulVec at h
  rw [if_neg (fun h => hne h.symm)] at h
  cases h

theorem gradOf_zero {d : Nat} {phi dphi : ℝ → ℝ → ℝ} (ht : ∀ y s t, phi y s + dphi y s * (t - s) ≤ phi y t) (lambda : ℝ)
    (hl : 0 ≤ lambda) (l : List (List ℝ × ℝ)) (v w : Fin d → ℝ) (h : ∀ a ∈ List.ofFn (gradOf dphi lambda l w), a = 0) :
    meanLoss phi l w + lambda * ridgeTerm l.length w ≤ meanLoss phi l v + lambda * ridgeTerm l.length v := by
  have h1 := meanLoss_tangent phi dphi ht lambda hl l v w
  have h2 : ∀ j, gradOf dphi lambda l w j = 0 := fun j => h _ (by simp)
  simpa [h2] using h1

/-- C78: where `MSE::gradient` returns the zero vector, `MSE::evaluate` is minimal over all weights. -/
theorem C78_mse (lambda : ℝ) (hl : 0 ≤ lambda) (X : DMat ℝ) (hX : X.WF) (_hn : X.rows ≠ []) (y : List ℝ) (hy : y.length = X.nrows)
    (w g : List ℝ) (hg : mseGradient lambda X y w = .ok g) (h0 : ∀ a ∈ g, a = 0) (v : List ℝ) (a b : ℝ)
    (ha : mseEvaluate lambda X y w = .ok a) (hb : mseEvaluate lambda X y v = .ok b) : a ≤ b := by
  obtain ⟨w', rfl⟩ := exists_ofFn w (evaluate_length hg)
  obtain ⟨v', rfl⟩ := exists_ofFn v (evaluate_length hb)
  rw [mseGradient_eq lambda X hX y hy] at hg
  rw [mseEvaluate_eq lambda X hX y hy] at ha hb
  cases hg; cases ha; cases hb
  have hlen : (X.rows.zip y).length = X.nrows := by
    rw [List.length_zip, hy]; exact Nat.min_self _
  have := gradOf_zero halfSquare_tangent lambda hl (X.rows.zip y) v' w' h0
  rw [hlen] at this
  exact this

/-- C78: where `LogLoss::gradient` returns the zero vector, `LogLoss::evaluate` is minimal over all weights. -/
theorem C78_log (lambda : ℝ) (hl : 0 ≤ lambda) (X : DMat ℝ) (hX : X.WF) (_hn : X.rows ≠ []) (y : List ℝ) (hy : y.length = X.nrows)
    (w g : List ℝ) (hg : logGradient lambda X y w = .ok g) (h0 : ∀ a ∈ g, a = 0) (v : List ℝ) (a b : ℝ)
    (ha : logEvaluate lambda X y w = .ok a) (hb : logEvaluate lambda X y v = .ok b) : a ≤ b := by
  obtain ⟨w', rfl⟩ := exists_ofFn w (evaluate_length hg)
  obtain ⟨v', rfl⟩ := exists_ofFn v (evaluate_length hb)
  rw [logGradient_eq lambda X hX y hy] at hg
  rw [logEvaluate_eq lambda X hX y hy] at ha hb
  cases hg; cases ha; cases hb
  have hlen : (X.rows.zip y).length = X.nrows := by
    rw [List.length_zip, hy]; exact Nat.min_self _
  have := gradOf_zero crossEntropy_tangent lambda hl (X.rows.zip y) v' w' h0
  rw [hlen] at this
  exact this

/-- A stationary point with non-zero loss. -/
example : mseGradient (0 : ℚ) ⟨1, [[1], [1]]⟩ [0, 2] [1] = .ok [0] ∧ mseEvaluate (0 : ℚ) ⟨1, [[1], [1]]⟩ [0, 2] [1] = .ok (1 / 2) := by
  decide +kernel

/-- C79: on a single sample `HuberLoss::evaluate` agrees with the documented Huber loss exactly if the residual is zero, has
magnitude one within the threshold, or exceeds the threshold from above: it uses the magnitude instead of the square, and treats
negative residuals differently from positive ones. -/
theorem C79_huber (lambda delta : ℝ) (hd : 0 < delta) (x : List ℝ) (y : ℝ) (w : Fin x.length → ℝ) :
    ∃ v, huberEvaluate lambda delta ⟨x.length, [x]⟩ [y] (List.ofFn w) = .ok (v + lambda * ridgeTerm 1 w) ∧
      (v = huber delta (y - score x w) ↔
        y - score x w = 0 ∨ |y - score x w| = 1 ∧ 1 ≤ delta ∨ delta < y - score x w) := by
  have hX : (⟨x.length, [x]⟩ : DMat ℝ).WF := by intro r hr; simp at hr; rw [hr]
  refine ⟨if |y - score x w| ≤ delta then 1 / 2 * |y - score x w| else delta * |y - score x w - 1 / 2 * delta|, ?_, ?_⟩
  · unfold huberEvaluate
    rw [scores_eq ⟨x.length, [x]⟩ hX w]
    simp only [List.map_cons, List.map_nil, Res.bind_ok, subV, List.length_cons, List.length_nil, if_true, List.zipWith_cons_cons,
      List.zipWith_nil_right, norm2, norm1, List.sum_cons, List.sum_nil, add_zero, Real.sqrt_mul_self_eq_abs, DMat.nrows,
      penalty_eq]
  · generalize y - score x w = r
    unfold huber
    by_cases hr : |r| ≤ delta
    · rw [if_pos hr, if_pos hr]
      have hs : r ^ 2 = |r| ^ 2 := (sq_abs r).symm
      constructor
      · intro h
        rw [hs] at h
        have h1 : |r| * (|r| - 1) = 0 := by nlinarith
        rcases mul_eq_zero.mp h1 with h2 | h2
        · exact Or.inl (abs_eq_zero.mp h2)
        · have h3 : |r| = 1 := by linarith
          exact Or.inr (Or.inl ⟨h3, by rw [← h3]; exact hr⟩)
      · rintro (h | ⟨h, -⟩ | h)
        · rw [h]; simp
        · rw [hs, h]; norm_num
        · exact absurd (le_trans (le_abs_self r) hr) (not_le.mpr h)
    · rw [if_neg hr, if_neg hr]
      have hr' := not_le.mp hr
      constructor
      · intro h
        refine Or.inr (Or.inr ?_)
        have h1 : |r - 1 / 2 * delta| = |r| - delta / 2 := by
          have : delta * |r - 1 / 2 * delta| = delta * (|r| - delta / 2) := by rw [h]; ring
          exact mul_left_cancel₀ hd.ne' this
        rcases le_total 0 r with h2 | h2
        · rw [abs_of_nonneg h2] at hr'; exact hr'
        · rw [abs_of_nonpos h2, abs_of_nonpos (by linarith)] at h1
          linarith
      · rintro (h | ⟨h, h2⟩ | h)
        · rw [h] at hr'; simp at hr'; linarith
        · rw [h] at hr'; linarith
        · rw [abs_of_nonneg (by linarith : 0 ≤ r - 1 / 2 * delta), abs_of_nonneg (by linarith : 0 ≤ r)]
          ring

/-- Residual 2 with threshold 3: the value is 1 instead of 2. -/
example : ∃ v, huberEvaluate 0 3 ⟨1, [[1]]⟩ [3] [1] = .ok v ∧ v ≠ huber 3 2 := by
  obtain ⟨v, h1, h2⟩ := C79_huber 0 3 (by norm_num) [1] 3 (fun _ => 1)
  refine ⟨v, by simpa using h1, fun h => ?_⟩
  have hs : score [1] (fun _ : Fin 1 => (1 : ℝ)) = 1 := by simp [score]
  have e : (3 : ℝ) - score [1] (fun _ : Fin 1 => (1 : ℝ)) = 2 := by rw [hs]; norm_num
  rw [show ([1] : List ℝ).length = 1 from rfl] at h2
  rw [e] at h2
  have := h2.mp h
  norm_num at this

end OpenML
