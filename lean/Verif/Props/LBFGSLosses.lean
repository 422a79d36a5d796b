import Verif.Props.LBFGSConverges
import Verif.Props.Descent
import Verif.Props.LogisticObject

/-!
# Convergence of L-BFGS on the ridge-penalised losses and of logistic regression with `lbfgs` (C138, C139)
-/

namespace OpenML

open SGD (LossFn)
open Spec LBFGS Loss LinearFit Descent
open scoped BigOperators

namespace LBFGSLosses

section Generic
variable (loss : LossFn ℝ (List ℝ)) (phi dphi : ℝ → ℝ → ℝ) (lambda : ℝ)
  (ht : ∀ y s t, phi y s + dphi y s * (t - s) ≤ phi y t)

include ht in
theorem objective_strong {d : Nat} (l : List (List ℝ × ℝ)) (hne : l.length ≠ 0) (v u : Fin d → ℝ) :
    objective phi lambda l v + ∑ j, gradOf dphi lambda l v j * (u j - v j) + lambda / l.length / 2 * ∑ j, (u j - v j) ^ 2 ≤
      objective phi lambda l u := by
  have h1 := meanLoss_tangent phi dphi ht 0 (le_refl _) l u v
  have hn : (0 : ℝ) < l.length := by positivity
  have h2 : ∀ j, gradOf dphi lambda l v j = gradOf dphi 0 l v j + v j / l.length * lambda := by
    intro j; simp [gradOf]
  have h3 : lambda * ridgeTerm l.length u = lambda * ridgeTerm l.length v + ∑ j, (v j / l.length * lambda) * (u j - v j) +
      lambda / l.length / 2 * ∑ j, (u j - v j) ^ 2 := by
    unfold ridgeTerm
    rw [Finset.sum_div, Finset.sum_div, Finset.mul_sum, Finset.mul_sum, Finset.mul_sum, ← Finset.sum_add_distrib,
      ← Finset.sum_add_distrib]
    refine Finset.sum_congr rfl fun j _ => ?_
    field_simp
    ring
  have h4 : ∑ j, gradOf dphi lambda l v j * (u j - v j) =
      ∑ j, gradOf dphi 0 l v j * (u j - v j) + ∑ j, (v j / l.length * lambda) * (u j - v j) := by
    rw [← Finset.sum_add_distrib]
    exact Finset.sum_congr rfl fun j _ => by rw [h2]; ring
  unfold objective
  linarith

/-- The gradient of a convex function with curvature up to `L` has the Lipschitz constant `L`. -/
theorem smooth_lipschitz {d : Nat} {F : (Fin d → ℝ) → ℝ} {G : (Fin d → ℝ) → Fin d → ℝ} {L : ℝ} (hL : 0 < L) (hS : Smooth F G L)
    (v w : Fin d → ℝ) : ∑ j, (G w j - G v j) ^ 2 ≤ L ^ 2 * ∑ j, (w j - v j) ^ 2 := by
  have half : ∀ v w : Fin d → ℝ, F v + ∑ j, G v j * (w j - v j) + (∑ j, (G w j - G v j) ^ 2) / (2 * L) ≤ F w := by
    intro v w
    have h1 := hS.lower v (fun j => w j - (G w j - G v j) / L)
    have h2 := hS.upper w (fun j => w j - (G w j - G v j) / L)
    have e1 : ∑ j, G v j * (w j - (G w j - G v j) / L - v j) =
        ∑ j, G v j * (w j - v j) - (∑ j, G v j * (G w j - G v j)) / L := by
      rw [Finset.sum_div, ← Finset.sum_sub_distrib]
      exact Finset.sum_congr rfl fun j _ => by ring
    have e2 : ∑ j, G w j * (w j - (G w j - G v j) / L - w j) = -(∑ j, G w j * (G w j - G v j)) / L := by
      rw [neg_div, Finset.sum_div, ← Finset.sum_neg_distrib]
      exact Finset.sum_congr rfl fun j _ => by ring
    have e3 : ∑ j, (w j - (G w j - G v j) / L - w j) ^ 2 = (∑ j, (G w j - G v j) ^ 2) / L ^ 2 := by
      rw [Finset.sum_div]
      exact Finset.sum_congr rfl fun j _ => by ring
    have e4 : ∑ j, (G w j - G v j) ^ 2 = ∑ j, G w j * (G w j - G v j) - ∑ j, G v j * (G w j - G v j) := by
      rw [← Finset.sum_sub_distrib]
      exact Finset.sum_congr rfl fun j _ => by ring
    rw [e1] at h1
    rw [e2, e3] at h2
    have e5 : L / 2 * ((∑ j, (G w j - G v j) ^ 2) / L ^ 2) = (∑ j, (G w j - G v j) ^ 2) / (2 * L) := by
      field_simp
    have e6 : (∑ j, (G w j - G v j) ^ 2) / L = (∑ j, G w j * (G w j - G v j)) / L - (∑ j, G v j * (G w j - G v j)) / L := by
      rw [e4, sub_div]
    have e7 : (∑ j, (G w j - G v j) ^ 2) / L = 2 * ((∑ j, (G w j - G v j) ^ 2) / (2 * L)) := by
      field_simp
    rw [e5, neg_div] at h2
    linarith
  have h1 := half v w
  have h2 := half w v
  have e1 : ∑ j, (G v j - G w j) ^ 2 = ∑ j, (G w j - G v j) ^ 2 := Finset.sum_congr rfl fun j _ => by ring
  have e2 : ∑ j, G v j * (w j - v j) + ∑ j, G w j * (v j - w j) = -∑ j, (G w j - G v j) * (w j - v j) := by
    rw [← Finset.sum_add_distrib, ← Finset.sum_neg_distrib]
    exact Finset.sum_congr rfl fun j _ => by ring
  rw [e1] at h2
  have h3 : ∑ j, (G w j - G v j) ^ 2 ≤ L * ∑ j, (G w j - G v j) * (w j - v j) := by
    have e7 : (∑ j, (G w j - G v j) ^ 2) / (2 * L) + (∑ j, (G w j - G v j) ^ 2) / (2 * L) = (∑ j, (G w j - G v j) ^ 2) / L := by
      field_simp
      ring
    have : (∑ j, (G w j - G v j) ^ 2) / L ≤ ∑ j, (G w j - G v j) * (w j - v j) := by linarith
    rw [div_le_iff₀ hL] at this
    linarith
  have hcs := Finset.sum_mul_sq_le_sq_mul_sq Finset.univ (fun j => G w j - G v j) (fun j => w j - v j)
  have hE : 0 ≤ ∑ j, (G w j - G v j) ^ 2 := Finset.sum_nonneg fun j _ => sq_nonneg _
  have hD : 0 ≤ ∑ j, (w j - v j) ^ 2 := Finset.sum_nonneg fun j _ => sq_nonneg _
  rcases eq_or_lt_of_le hE with h0 | h0
  · rw [← h0]
    positivity
  · have h4 : (∑ j, (G w j - G v j) ^ 2) ^ 2 ≤ L ^ 2 * ((∑ j, (G w j - G v j) ^ 2) * ∑ j, (w j - v j) ^ 2) := by
      calc _ ≤ (L * ∑ j, (G w j - G v j) * (w j - v j)) ^ 2 := pow_le_pow_left₀ hE h3 2
        _ = L ^ 2 * (∑ j, (G w j - G v j) * (w j - v j)) ^ 2 := by ring
        _ ≤ _ := mul_le_mul_of_nonneg_left hcs (sq_nonneg L)
    refine le_of_mul_le_mul_left ?_ h0
    nlinarith

variable (hm : IsMean loss phi dphi lambda) (X : DMat ℝ) (hX : X.WF) (hn : X.nrows ≠ 0) (y : List ℝ) (hy : y.length = X.nrows)

include hm hX hy in
theorem mean_total : TotalOn loss X y X.ncols := by
  intro w hw
  obtain ⟨f, rfl⟩ := exists_ofFn w hw
  exact ⟨⟨_, hm.evaluate X hX y hy f⟩, _, hm.gradient X hX y hy f, List.length_ofFn⟩

include ht hm hX hn hy in
theorem mean_strong : StrongConvexity loss X y X.ncols (lambda / X.nrows) := by
  intro x z hx hz f f' g ex ez eg
  obtain ⟨v, rfl⟩ := exists_ofFn x hx
  obtain ⟨u, rfl⟩ := exists_ofFn z hz
  rw [evaluate_objective loss phi dphi lambda hm X hX y hy, Res.ok.injEq] at ex ez
  rw [hm.gradient X hX y hy, Res.ok.injEq] at eg
  subst ex ez eg
  have hzl : (X.rows.zip y).length = X.nrows := by
    rw [List.length_zip, hy]; exact Nat.min_self _
  have := objective_strong phi dphi lambda ht (X.rows.zip y) (by rw [hzl]; exact hn) v u
  rw [hzl] at this
  have e1 : sqDist (List.ofFn u) (List.ofFn v) = ∑ j, (u j - v j) ^ 2 := weightDist_ofFn u v
  rw [e1, zipWith_ofFn, zipWith_ofFn, List.sum_ofFn]
  exact this

variable (c : ℝ) (hc : 0 ≤ c) (hu : ∀ y s t, phi y t ≤ phi y s + dphi y s * (t - s) + c / 2 * (t - s) ^ 2) (hl : 0 < lambda)

include hc hl in
theorem steepness_ge (rows : List (List ℝ)) : lambda / rows.length ≤ steepness c lambda rows := by
  unfold steepness
  refine div_le_div_of_nonneg_right ?_ (Nat.cast_nonneg _)
  have : 0 ≤ featureMass rows := List.sum_nonneg fun a ha => by
    obtain ⟨x, _, rfl⟩ := List.mem_map.mp ha
    exact List.sum_nonneg fun b hb => by
      obtain ⟨z, _, rfl⟩ := List.mem_map.mp hb
      exact sq_nonneg z
  nlinarith [mul_nonneg hc this]

include ht hm hX hn hy hc hu hl in
theorem mean_lipschitz : LipschitzGradient loss X y X.ncols (steepness c lambda X.rows) := by
  intro x z hx hz g h eg eh
  obtain ⟨v, rfl⟩ := exists_ofFn x hx
  obtain ⟨u, rfl⟩ := exists_ofFn z hz
  rw [hm.gradient X hX y hy, Res.ok.injEq] at eg eh
  subst eg eh
  have hS := smooth_data phi dphi lambda c hc ht hu hl.le X hX y hy
  have hL : 0 < steepness c lambda X.rows :=
    lt_of_lt_of_le (div_pos hl (by exact_mod_cast Nat.pos_of_ne_zero hn)) (steepness_ge lambda c hc hl X.rows)
  have := smooth_lipschitz hL hS v u
  have e1 : ∀ a b : Fin X.ncols → ℝ, sqDist (List.ofFn a) (List.ofFn b) = ∑ j, (a j - b j) ^ 2 := fun a b => weightDist_ofFn a b
  rw [e1, e1]
  exact this

end Generic

/-- What the parameters have to satisfy for the rate of convergence. -/
structure _root_.OpenML.Spec.WolfeParams (p : LBFGS.Params ℝ) : Prop where
  factors : Factors p.search
  wolfe_used : p.search.condition ≠ "ARMIJO"
  wolfe_lt : p.search.wolfe < 1
  ftol_pos : 0 < p.search.ftol
  ftol_le : p.search.ftol * (1 - p.search.wolfe) ≤ 1 / 2
  tol_nonneg : 0 ≤ p.tol

theorem mean_curved {loss : LossFn ℝ (List ℝ)} {phi dphi : ℝ → ℝ → ℝ} {lambda c : ℝ}
    (ht : ∀ y s t, phi y s + dphi y s * (t - s) ≤ phi y t) (hm : IsMean loss phi dphi lambda) (hc : 0 ≤ c)
    (hu : ∀ y s t, phi y t ≤ phi y s + dphi y s * (t - s) + c / 2 * (t - s) ^ 2) (hl : 0 < lambda) {X : DMat ℝ} (hX : X.WF)
    (hn : X.nrows ≠ 0) {y : List ℝ} (hy : y.length = X.nrows) {p : LBFGS.Params ℝ} (hp : WolfeParams p) {n : Nat} (hd : n = X.ncols) :
    CurvedProblem loss X y n (lambda / X.nrows) (steepness c lambda X.rows) p where
  mu_pos := div_pos hl (by exact_mod_cast Nat.pos_of_ne_zero hn)
  mu_le := steepness_ge lambda c hc hl X.rows
  convex := hd ▸ mean_strong loss phi dphi lambda ht hm X hX hn y hy
  smooth := hd ▸ mean_lipschitz loss phi dphi lambda ht hm X hX hn y hy c hc hu hl
  factors := hp.factors
  wolfe_used := hp.wolfe_used
  wolfe_lt := hp.wolfe_lt
  ftol_pos := hp.ftol_pos
  ftol_le := hp.ftol_le
  tol_nonneg := hp.tol_nonneg

theorem real_sqrt (a : ℝ) (ha : 0 ≤ a) : 0 ≤ Real.sqrt a ∧ Real.sqrt a ^ 2 = a := ⟨Real.sqrt_nonneg a, Real.sq_sqrt ha⟩

end LBFGSLosses

open LBFGSLosses

/-- C138: L-BFGS ends on the mean squared error with a ridge penalty. -/
theorem C138_mse (lambda : ℝ) (hl : 0 < lambda) (p : LBFGS.Params ℝ) (hp : WolfeParams p)
    (hpol : p.policy = "backtracking" ∨ p.policy = "bracketing") (hmem : 0 < p.memSize) (hpast : 0 < p.past) (X : DMat ℝ) (hX : X.WF)
    (hn : X.nrows ≠ 0) (y : List ℝ) (hy : y.length = X.nrows) (x0 g0 : List ℝ) (hx0 : x0.length = X.ncols) (f0 : ℝ)
    (ex : mseEvaluate lambda X y x0 = .ok f0) (eg : mseGradient lambda X y x0 = .ok g0) (junk : Nat → ℝ) (N : Nat) :
    let mu := lambda / X.nrows
    let gain := lbfgsGain p.memSize mu (steepness 1 lambda X.rows) p.search.ftol p.search.wolfe
    (g0.map fun a => a ^ 2).sum < 2 * mu * gain * p.tol ^ 2 * N →
    (len Real.sqrt g0 ≤ p.tol * max 1 (len Real.sqrt x0) ∧
      ∀ fuel, LBFGS.optimize Real.sqrt p junk fuel ⟨mseEvaluate lambda, mseGradient lambda⟩ X y x0 = .ok none) ∨
    ∃ x K, K < N ∧
      (∀ fuel ≥ N, LBFGS.optimize Real.sqrt p junk fuel ⟨mseEvaluate lambda, mseGradient lambda⟩ X y x0 = .ok (some x)) ∧
      x.length = X.ncols ∧ ∃ f, mseEvaluate lambda X y x = .ok f ∧ ∀ z f', z.length = X.ncols → mseEvaluate lambda X y z = .ok f' →
        f - f' ≤ (1 - 2 * mu * gain) ^ K * (f0 - f') := by
  intro mu gain hN
  have hR := mean_curved (c := 1) halfSquare_tangent (isMean_mse lambda) zero_le_one halfSquare_upper hl hX hn hy hp hx0
  have hT := mean_total _ _ _ lambda (isMean_mse lambda) X hX y hy
  rw [← hx0] at hT
  rcases C138_ends Real.sqrt real_sqrt ⟨mseEvaluate lambda, mseGradient lambda⟩ X y mu _ p junk x0 g0 f0 hR hT hpol hmem hpast ex eg N
    hN with h | ⟨x, policy, σ, K, -, -, hK, -, -, -, hopt, hlen, f, hf, hz⟩
  · exact Or.inl h
  · exact Or.inr ⟨x, K, hK, hopt, hlen.trans hx0, f, hf, fun z f' hzl => hz z f' (hzl.trans hx0.symm)⟩

open LogisticObject

/-- C138: logistic regression with the solver "lbfgs", a ridge penalty and a Wolfe condition ends after a bounded number of iterations,
even if the number of iterations is not limited. It leaves no weights if the gradient at the initial weights passes the test; otherwise
the excess of the loss has shrunk with every iteration. -/
theorem C138_logistic (m : Members) (hp : m.penalty = "l2" ∨ m.penalty = "None") (hs : m.solver = "lbfgs") (hl : 0 < m.lambda)
    (hpol : m.policy = "backtracking" ∨ m.policy = "bracketing") (hcond : m.condition ≠ "ARMIJO") (hw : m.wolfe < 1) (hf : 0 < m.ftol)
    (hfw : m.ftol * (1 - m.wolfe) ≤ 1 / 2) (htol : 0 ≤ m.tol) (hmem : 0 < m.memSize) (hpast : 0 < m.past) (X : DMat ℝ) (hX : X.WF)
    (hn : X.nrows ≠ 0) (y : List ℝ) (hy : y.length = X.nrows) (init g0 : List ℝ) (hi : init.length = X.ncols + 1) (f0 : ℝ)
    (ex : logEvaluate m.lambda (withOnes X) y init = .ok f0) (eg : logGradient m.lambda (withOnes X) y init = .ok g0)
    (perms : Nat → List Nat) (junk : Nat → ℝ) (N : Nat) :
    let mu := m.lambda / X.nrows
    let gain := lbfgsGain m.memSize mu (steepness (1 / 4) m.lambda (withOnes X).rows) m.ftol m.wolfe
    (g0.map fun a => a ^ 2).sum < 2 * mu * gain * m.tol ^ 2 * N →
    (len Real.sqrt g0 ≤ m.tol * max 1 (len Real.sqrt init) ∧ ∀ fuel, fit m perms junk fuel X y init = .ok []) ∨
    ∃ w K, K < N ∧ (∀ fuel ≥ N, fit m perms junk fuel X y init = .ok w) ∧ w.length = X.ncols + 1 ∧
      ∃ f, logEvaluate m.lambda (withOnes X) y w = .ok f ∧
        ∀ z f', z.length = X.ncols + 1 → logEvaluate m.lambda (withOnes X) y z = .ok f' →
          f - f' ≤ (1 - 2 * mu * gain) ^ K * (f0 - f') := by
  intro mu gain hN
  have hnr : (withOnes X).nrows = X.nrows := by simp [withOnes, DMat.nrows]
  have hW : WolfeParams (lbfgsParams m) := ⟨by constructor <;> norm_num [lbfgsParams], hcond, hw, hf, hfw, htol⟩
  have hR := mean_curved (c := 1 / 4) (p := lbfgsParams m) crossEntropy_tangent (isMean_log m.lambda) (by norm_num) crossEntropy_upper
    hl (withOnes_wf X hX) (by rw [hnr]; exact hn) (by rw [hnr]; exact hy) hW (n := init.length) hi
  rw [hnr] at hR
  have hT := mean_total _ _ _ m.lambda (isMean_log m.lambda) (withOnes X) (withOnes_wf X hX) y (by rw [hnr]; exact hy)
  rw [show (withOnes X).ncols = init.length from hi.symm] at hT
  have e := fun fuel => fit_lbfgs m perms junk fuel X y init hp hs
  rcases C138_ends Real.sqrt real_sqrt ⟨logEvaluate m.lambda, logGradient m.lambda⟩ (withOnes X) y mu _ (lbfgsParams m) junk init g0 f0 hR
    hT hpol hmem hpast ex eg N hN with ⟨h1, h2⟩ | ⟨x, policy, σ, K, -, -, hK, -, -, -, hopt, hlen, f, hf, hz⟩
  · refine Or.inl ⟨h1, fun fuel => ?_⟩
    rw [e, h2 fuel]
    rfl
  · refine Or.inr ⟨x, K, hK, fun fuel hfu => ?_, hlen.trans hi, f, hf, fun z f' hzl => hz z f' (hzl.trans hi.symm)⟩
    rw [e, hopt fuel hfu]
    rfl

/-- C139: logistic regression with the solver "lbfgs", the bracketing search, a ridge penalty and a Wolfe condition finds weights with
a small gradient, and with a loss close to the smallest one. -/
theorem C139_logistic (m : Members) (hp : m.penalty = "l2" ∨ m.penalty = "None") (hs : m.solver = "lbfgs") (hl : 0 < m.lambda)
    (hpol : m.policy = "bracketing") (hcond : m.condition ≠ "ARMIJO") (hw : m.wolfe < 1) (hf : 0 < m.ftol)
    (hfw : m.ftol * (1 - m.wolfe) ≤ 1 / 2) (htol : 0 ≤ m.tol) (hdelta : m.delta ≤ 0) (hmem : 0 < m.memSize) (hpast : 0 < m.past)
    (X : DMat ℝ) (hX : X.WF) (hn : X.nrows ≠ 0) (y : List ℝ) (hy : y.length = X.nrows) (init g0 : List ℝ)
    (hi : init.length = X.ncols + 1) (eg : logGradient m.lambda (withOnes X) y init = .ok g0) (perms : Nat → List Nat) (junk : Nat → ℝ)
    (A B N : Nat) :
    let mu := m.lambda / X.nrows
    let L := steepness (1 / 4) m.lambda (withOnes X).rows
    WideSearch (lbfgsParams m) mu L (len Real.sqrt g0) A B →
    (g0.map fun a => a ^ 2).sum < 2 * mu * lbfgsGain m.memSize mu L m.ftol m.wolfe * m.tol ^ 2 * N →
    m.maxIter = 0 ∨ N < m.maxIter → ∀ fuel ≥ N,
    (len Real.sqrt g0 ≤ m.tol * max 1 (len Real.sqrt init) ∧ fit m perms junk fuel X y init = .ok []) ∨
    ∃ w f g, fit m perms junk fuel X y init = .ok w ∧ w.length = X.ncols + 1 ∧ logEvaluate m.lambda (withOnes X) y w = .ok f ∧
      logGradient m.lambda (withOnes X) y w = .ok g ∧ len Real.sqrt g ≤ m.tol * max 1 (len Real.sqrt w) ∧
      ∀ z f', z.length = X.ncols + 1 → logEvaluate m.lambda (withOnes X) y z = .ok f' →
        2 * mu * (f - f') ≤ (m.tol * max 1 (len Real.sqrt w)) ^ 2 := by
  intro mu L hWS hN hmax fuel hfuel
  have hnr : (withOnes X).nrows = X.nrows := by simp [withOnes, DMat.nrows]
  have hW : WolfeParams (lbfgsParams m) := ⟨by constructor <;> norm_num [lbfgsParams], hcond, hw, hf, hfw, htol⟩
  have hR := mean_curved (c := 1 / 4) (p := lbfgsParams m) crossEntropy_tangent (isMean_log m.lambda) (by norm_num) crossEntropy_upper
    hl (withOnes_wf X hX) (by rw [hnr]; exact hn) (by rw [hnr]; exact hy) hW (n := init.length) hi
  rw [hnr] at hR
  have hT := mean_total _ _ _ m.lambda (isMean_log m.lambda) (withOnes X) (withOnes_wf X hX) y (by rw [hnr]; exact hy)
  rw [show (withOnes X).ncols = init.length from hi.symm] at hT
  have e := fit_lbfgs m perms junk fuel X y init hp hs
  rcases C139_converges Real.sqrt real_sqrt ⟨logEvaluate m.lambda, logGradient m.lambda⟩ (withOnes X) y mu L (lbfgsParams m) junk init g0
    hR hT hpol hmem hpast hdelta eg A B hWS N hN hmax fuel hfuel with ⟨h1, h2⟩ | ⟨x, f, g, h1, h2, h3, h4, h5, h6⟩
  · refine Or.inl ⟨h1, ?_⟩
    rw [e, h2]
    rfl
  · refine Or.inr ⟨x, f, g, ?_, h2.trans hi, h3, h4, h5, fun z f' hzl => h6 z f' (hzl.trans hi.symm)⟩
    rw [e, h1]
    rfl

/-- Example for `C138_mse`: one sample with feature 1 and label 2. -/
example : (⟨1, [[1]]⟩ : DMat ℝ).WF ∧ WolfeParams (basinParams ℝ "backtracking") ∧ (0 : ℝ) < 1 ∧
    mseGradient (1 : ℝ) ⟨1, [[1]]⟩ [2] [0] = .ok [-2] ∧
    ∃ N : Nat, (([-2] : List ℝ).map fun a => a ^ 2).sum < 2 * ((1 : ℝ) / ((⟨1, [[1]]⟩ : DMat ℝ).nrows : ℝ)) *
      lbfgsGain 1 ((1 : ℝ) / ((⟨1, [[1]]⟩ : DMat ℝ).nrows : ℝ)) (steepness 1 1 [[1]]) (1 / 10) (9 / 10) * (1 / 10) ^ 2 * N := by
  refine ⟨by intro r hr; simp_all, ⟨by constructor <;> norm_num [basinParams], by change "WOLFE" ≠ "ARMIJO"; decide,
    by norm_num [basinParams], by norm_num [basinParams], by norm_num [basinParams], by norm_num [basinParams]⟩, one_pos, ?_,
    100000000, ?_⟩
  · norm_num [mseGradient, mulVec, tmulVec, dotL, subV, addV, penaltyGrad, DMat.nrows, DMat.cols, DMat.col, Res.bind_ok, List.filterMap_cons]
  · norm_num [lbfgsGain, bfgsCondition, steepness, featureMass, DMat.nrows]

/-- Example for `C138_logistic` and `C139_logistic`: two samples without features, one of each class, the initial intercept 1 and the
ridge factor 1 / 2, without a limit of the number of iterations. -/
example : ∃ m : Members, m.solver = "lbfgs" ∧ m.maxIter = 0 ∧ ∃ N, ∀ perms junk, ∃ w g, fit m perms junk N two [0, 1] [1] = .ok w ∧
    logGradient (1 / 2) (withOnes two) [0, 1] w = .ok g ∧ len Real.sqrt g ≤ 1 / 10 * max 1 (len Real.sqrt w) := by
  let m : Members := ⟨false, false, 0, 1 / 2, 1 / 10, 0, 1 / 10, 9 / 10, 0, 0, 10, 0, 0, 1, 1, "lbfgs", "l2", "bracketing", "WOLFE"⟩
  have hmono : Real.sigmoid 0 < Real.sigmoid 1 := Real.sigmoid_strictMono (by norm_num)
  rw [Real.sigmoid_zero] at hmono
  have hlt := Real.sigmoid_lt_one 1
  obtain ⟨G, hG⟩ : ∃ G, G = Real.sigmoid 1 - 1 / 2 + 1 / 2 * (1 / 2) := ⟨_, rfl⟩
  have hg : logGradient m.lambda (withOnes two) [0, 1] [1] = .ok [G] := by
    rw [hG, withOnes_two]
    exact gradient_two (1 / 2) 1 [0, 1] (Or.inl rfl)
  have hG1 : 1 / 4 < G := by
    norm_num at hmono ⊢
    linarith
  have hG2 : G < 3 / 4 := by linarith
  have hlen : len Real.sqrt [G] = G := by
    unfold len
    rw [show ([G].map fun a : ℝ => a * a).sum = G ^ 2 by simp [pow_two], Real.sqrt_sq (by linarith)]
  have hmu : m.lambda / (two.nrows : ℝ) = 1 / 4 := by norm_num [m, two, DMat.nrows]
  have hL : steepness (1 / 4) m.lambda (withOnes two).rows = 1 / 2 := by
    rw [withOnes_two]
    norm_num [steepness, featureMass, m]
  have hgain : lbfgsGain m.memSize (1 / 4) (1 / 2) m.ftol m.wolfe = 1 / 8000 := by
    norm_num [lbfgsGain, bfgsCondition, m]
  have hW : WideSearch (lbfgsParams m) (1 / 4) (1 / 2) G 0 6 := by
    constructor <;> norm_num [lbfgsParams, m, bfgsLower, bfgsUpper] <;> linarith
  refine ⟨m, rfl, rfl, 10000000, fun perms junk => ?_⟩
  rcases C139_logistic m (Or.inl rfl) rfl (by norm_num [m]) rfl (by change "WOLFE" ≠ "ARMIJO"; decide) (by norm_num [m])
    (by norm_num [m]) (by norm_num [m]) (by norm_num [m]) (by norm_num [m]) Nat.one_pos Nat.one_pos two (by intro r hr; simp_all [two])
    (by decide) [0, 1] rfl [1] [G] rfl hg perms junk 0 6 10000000 (by rw [hmu, hL, hlen]; exact hW)
    (by
      rw [hmu, hL, hgain]
      have : ([G].map fun a : ℝ => a ^ 2).sum = G ^ 2 := by simp
      rw [this]
      norm_num [m]
      nlinarith)
    (Or.inl rfl) 10000000 le_rfl with ⟨h, -⟩ | ⟨w, f, g, h1, -, -, h2, h3, -⟩
  · exfalso
    rw [hlen] at h
    have : max 1 (len Real.sqrt [(1 : ℝ)]) = 1 := by norm_num [len]
    rw [this] at h
    norm_num [m] at h
    linarith
  · exact ⟨w, g, h1, h2, h3⟩

end OpenML
