import Verif.Props.LBFGSRun
import Verif.Props.LogisticObject

/-! # The weights published by L-BFGS are reached by accepted steps (C135) -/

namespace OpenML

open SGD (LossFn)
open Spec LBFGS

section
variable {α : Type} [Field α] [LinearOrder α] [IsStrictOrderedRing α]

namespace LBFGS

/-- The loss and the gradient stored in the state are those of the point. -/
def Consistent (loss : LossFn α (List α)) (X : DMat α) (y : List α) (st : State α) : Prop :=
  loss.evaluate X y st.x = .ok st.fx ∧ loss.gradient X y st.x = .ok st.g

theorem search_step {policy : Policy} {p : SearchParams α} (hf : Factors p) {loss : LossFn α (List α)} {X : DMat α} {y : List α}
    {st : State α} (hst : Consistent loss X y st) {r : Found α}
    (h : search policy p loss X y st.fx st.g st.d st.step st.x = .ok (some r)) :
    SearchStep (loss.evaluate X y) (loss.gradient X y) p.condition p.ftol p.wolfe st.x r.x ∧
      loss.evaluate X y r.x = .ok r.fx ∧ loss.gradient X y r.x = .ok r.g := by
  obtain ⟨-, hm, hx, he, hg, hs, hc, -⟩ := C53_success policy p hf loss X y st.fx st.g st.d st.step st.x r h
  refine ⟨⟨st.fx, st.g, st.d, _, hst.1, hst.2, hm, hs, hx, ?_, hc⟩, he, hg⟩
  dsimp only [IsTrial]
  rw [← hx]
  exact ⟨r.g, he, hg, rfl⟩

theorem mainLoop_path {sqrt : α → α} {policy : Policy} {p : LBFGS.Params α} (hf : Factors p.search) {loss : LossFn α (List α)}
    {X : DMat α} {y : List α} (fuel : Nat) : ∀ (st : State α) (x0 : List α) (n : Nat), Consistent loss X y st → st.k = n + 1 →
    (p.maxIter ≠ 0 → n + 1 ≤ p.maxIter) →
    SearchPath (loss.evaluate X y) (loss.gradient X y) p.search.condition p.search.ftol p.search.wolfe n x0 st.x → ∀ x : List α,
    mainLoop sqrt policy p loss X y fuel st = .ok x →
    ∃ m, SearchPath (loss.evaluate X y) (loss.gradient X y) p.search.condition p.search.ftol p.search.wolfe m x0 x ∧
      (p.maxIter ≠ 0 → m ≤ p.maxIter) := by
  induction fuel with
  | zero =>
    intro _ _ _ _ _ _ _ _ h
    cases h
  | succ fuel ih =>
    intro st x0 n hst hk hle hpath x h
    rw [mainLoop] at h
    obtain ⟨o, ho, h⟩ := Res.bind_eq_ok.mp h
    unfold iteration at ho
    obtain ⟨ls, hls, ho⟩ := Res.bind_eq_ok.mp ho
    cases ls with
    | none =>
      cases ho
      cases h
      exact ⟨n, hpath, fun h => by have := hle h; omega⟩
    | some r =>
      obtain ⟨h1, h2, h3⟩ := search_step hf hst hls
      have hpath' := SearchPath.step hpath h1
      dsimp only at ho
      split at ho
      · cases ho
        cases h
        exact ⟨n + 1, hpath', hle⟩
      · obtain ⟨t, ht, ho⟩ := Res.bind_eq_ok.mp ho
        cases t with
        | none =>
          cases ho
          cases h
          exact ⟨n + 1, hpath', hle⟩
        | some pfx =>
          dsimp only at ho
          split at ho
          · cases ho
            cases h
            exact ⟨n + 1, hpath', hle⟩
          · rename_i hmax
            obtain ⟨st'', hu, ho⟩ := Res.bind_eq_ok.mp ho
            cases ho
            unfold update at hu
            obtain ⟨_, -, hu⟩ := Res.bind_eq_ok.mp hu
            obtain ⟨_, -, hu⟩ := Res.bind_eq_ok.mp hu
            obtain ⟨_, -, hu⟩ := Res.bind_eq_ok.mp hu
            obtain ⟨_, -, hu⟩ := Res.bind_eq_ok.mp hu
            obtain ⟨_, -, hu⟩ := Res.bind_eq_ok.mp hu
            dsimp only at hu
            obtain ⟨_, -, hu⟩ := Res.bind_eq_ok.mp hu
            cases hu
            refine ih _ x0 (n + 1) ⟨h2, h3⟩ (by simp only; omega) (fun hm => ?_) hpath' x h
            by_contra hlt
            exact hmax ⟨hm, by omega⟩

end LBFGS

/-- C135: weights published by `LBFGS::optimize` are reached from the initial weights by at most `max_iter` steps (any number if that is
zero), each in a direction that is not ascending and to a point that meets the selected condition with the given constants. -/
theorem C135_path (sqrt : α → α) (p : LBFGS.Params α) (hf : Factors p.search) (junk : Nat → α) (fuel : Nat)
    (loss : LossFn α (List α)) (X : DMat α) (y x0 x : List α) (h : LBFGS.optimize sqrt p junk fuel loss X y x0 = .ok (some x)) :
    ∃ n, SearchPath (loss.evaluate X y) (loss.gradient X y) p.search.condition p.search.ftol p.search.wolfe n x0 x ∧
      (p.maxIter ≠ 0 → n ≤ p.maxIter) := by
  unfold LBFGS.optimize at h
  obtain ⟨policy, -, h⟩ := Res.bind_eq_ok.mp h
  obtain ⟨f0, hf0, h⟩ := Res.bind_eq_ok.mp h
  obtain ⟨g, hg, h⟩ := Res.bind_eq_ok.mp h
  split at h
  · cases h
  · obtain ⟨step, -, h⟩ := Res.bind_eq_ok.mp h
    obtain ⟨x', hx', h⟩ := Res.bind_eq_ok.mp h
    cases h
    exact mainLoop_path hf fuel (initial p junk x0 g f0 step) x0 0 ⟨hf0, hg⟩ rfl (fun h => by omega) (.start x0) x hx'

/-- Example for `C135_path`: the loss `w ^ 4` from weight 3 with at most 2 iterations. -/
example : Factors (exampleParams 2 3).search ∧
    LBFGS.optimize ratSqrt (exampleParams 2 3) (fun _ => 0) 2 quarticLoss ⟨1, []⟩ [] [3] = .ok (some [30 / 19]) :=
  ⟨by constructor <;> norm_num [exampleParams], by decide +kernel⟩

end

open LogisticObject Loss LinearFit in
/-- C135: logistic regression with the solver "lbfgs" returns weights reached by such steps on the logarithmic loss of its data with
its own constants, or no weights if the gradient at the initial weights is small enough. -/
theorem C135_logistic (m : Members) (hp : m.penalty = "l2" ∨ m.penalty = "None") (hs : m.solver = "lbfgs")
    (perms : Nat → List Nat) (junk : Nat → ℝ) (fuel : Nat) (X : DMat ℝ) (y init w : List ℝ)
    (h : fit m perms junk fuel X y init = .ok w) :
    (w = [] ∧ ∃ g, logGradient m.lambda (withOnes X) y init = .ok g ∧ len Real.sqrt g ≤ m.tol * max 1 (len Real.sqrt init)) ∨
    ∃ n, SearchPath (logEvaluate m.lambda (withOnes X) y) (logGradient m.lambda (withOnes X) y) m.condition m.ftol m.wolfe n init w ∧
      (m.maxIter ≠ 0 → n ≤ m.maxIter) := by
  rw [fit_lbfgs m perms junk fuel X y init hp hs] at h
  obtain ⟨r, hr, h⟩ := Res.bind_eq_ok.mp h
  obtain rfl := Res.ok.inj h
  cases r with
  | none =>
    left
    refine ⟨rfl, ?_⟩
    unfold LBFGS.optimize at hr
    obtain ⟨policy, -, hr⟩ := Res.bind_eq_ok.mp hr
    obtain ⟨f0, -, hr⟩ := Res.bind_eq_ok.mp hr
    obtain ⟨g, hg, hr⟩ := Res.bind_eq_ok.mp hr
    split at hr
    · rename_i hc
      exact ⟨g, hg, (converged_iff _ _ _ _).mp hc⟩
    · obtain ⟨step, -, hr⟩ := Res.bind_eq_ok.mp hr
      obtain ⟨x', hx', hr⟩ := Res.bind_eq_ok.mp hr
      cases hr
  | some x =>
    right
    exact C135_path Real.sqrt (lbfgsParams m) (by constructor <;> norm_num [lbfgsParams]) junk fuel
      ⟨logEvaluate m.lambda, logGradient m.lambda⟩ (withOnes X) y init x hr

open LogisticObject Loss LinearFit in
/-- Example for `C135_logistic`: two samples without features, one of each class, and the initial intercept 1; the first step leads to the
minimum. -/
example : ∃ m : Members, m.penalty = "l2" ∧ m.solver = "lbfgs" ∧
    ∀ perms junk, fit m perms junk 1 two [0, 1] [1] = .ok [0] := by
  let m : Members := ⟨false, false, 0, 0, 1 / 100, 0, 0, 9 / 10, 0, 0, 3, 0, 5, 3, 1, "lbfgs", "l2", "backtracking", "ARMIJO"⟩
  refine ⟨m, rfl, rfl, fun perms junk => ?_⟩
  rw [fit_lbfgs m perms junk 1 two [0, 1] [1] (Or.inl rfl) rfl, withOnes_two]
  set c := Real.sigmoid 1 - 1 / 2 with hc
  have hmono : Real.sigmoid 0 < Real.sigmoid 1 := Real.sigmoid_strictMono (by norm_num)
  rw [Real.sigmoid_zero] at hmono
  have hcpos : 1 / 100 < c := by
    have h1 : (2 : ℝ) ≤ Real.exp 1 := by linarith [Real.add_one_le_exp (1 : ℝ)]
    have h2 : (Real.exp 1)⁻¹ ≤ 2⁻¹ := inv_anti₀ (by norm_num) h1
    have h3 : (1 + (2 : ℝ)⁻¹)⁻¹ ≤ (1 + (Real.exp 1)⁻¹)⁻¹ := inv_anti₀ (by positivity) (by linarith)
    have : Real.sigmoid 1 = (1 + (Real.exp 1)⁻¹)⁻¹ := by rw [Real.sigmoid_def, Real.exp_neg]
    rw [hc, this]
    norm_num at h3 ⊢
    linarith
  have hev : ∀ v : ℝ, logEvaluate 0 (⟨1, [[1], [1]]⟩ : DMat ℝ) [0, 1] [v] =
      .ok ((-Real.log (1 - Real.sigmoid v) - Real.log (Real.sigmoid v)) / 2) := by
    intro v
    have h1 : mulVec (⟨1, [[1], [1]]⟩ : DMat ℝ) [v] = .ok [v, v] := by simp [mulVec, dotL]
    unfold logEvaluate
    rw [h1, Res.bind_ok, sigmoidV_eq]
    simp [subV, penalty, DMat.nrows]
    ring
  have hle : (-Real.log (1 - Real.sigmoid 0) - Real.log (Real.sigmoid 0)) / 2 ≤
      (-Real.log (1 - Real.sigmoid 1) - Real.log (Real.sigmoid 1)) / 2 := by
    have p0 := Real.sigmoid_pos 1
    have p1 := Real.sigmoid_lt_one 1
    have e1 := Real.log_mul (sub_pos.mpr p1).ne' p0.ne'
    have e2 := Real.log_mul (show (1 - (1 / 2 : ℝ)) ≠ 0 by norm_num) (show (1 / 2 : ℝ) ≠ 0 by norm_num)
    have e3 : Real.log ((1 - Real.sigmoid 1) * Real.sigmoid 1) ≤ Real.log ((1 - 1 / 2) * (1 / 2)) :=
      Real.log_le_log (mul_pos (sub_pos.mpr p1) p0) (by nlinarith [sq_nonneg (Real.sigmoid 1 - 1 / 2)])
    rw [Real.sigmoid_zero, show (2 : ℝ)⁻¹ = 1 / 2 by norm_num]
    linarith
  have hn1 : ∀ a : ℝ, LBFGS.norm Real.sqrt [a] = |a| := by
    intro a
    rw [LBFGS.norm, show dotL [a] [a] = a ^ 2 by simp [dotL, pow_two], Real.sqrt_sq_eq_abs]
  have hg1 : logGradient 0 ⟨1, [[1], [1]]⟩ [0, 1] [1] = .ok [c] := by
    rw [gradient_two _ _ _ (Or.inl rfl), mul_zero, add_zero]
  have hg0 : logGradient 0 ⟨1, [[1], [1]]⟩ [0, 1] [0] = .ok [0] := by
    rw [gradient_two _ _ _ (Or.inl rfl), Real.sigmoid_zero]
    norm_num
  set f0 := (-Real.log (1 - Real.sigmoid 0) - Real.log (Real.sigmoid 0)) / 2 with hf0
  set f1 := (-Real.log (1 - Real.sigmoid 1) - Real.log (Real.sigmoid 1)) / 2 with hf1
  have hc0 : 0 < c := by linarith
  have hconv1 : LBFGS.converged Real.sqrt (1 / 100) [1] [c] = false := by
    unfold LBFGS.converged
    dsimp only
    rw [hn1, hn1, abs_one, if_neg (lt_irrefl _), div_one, abs_of_pos hc0, decide_eq_false_iff_not]
    linarith
  have hconv0 : LBFGS.converged Real.sqrt (1 / 100) [0] [0] = true := by
    unfold LBFGS.converged
    dsimp only
    rw [hn1, abs_zero, decide_eq_true_iff]
    norm_num
  have hprobe : LBFGS.probe (lbfgsParams m).search ⟨logEvaluate 0, logGradient 0⟩ ⟨1, [[1], [1]]⟩ [0, 1] f1 (-c * c) [1] [-c] 0
      (1 / c) = .ok (.accept, ⟨1, [0], f0, [0], 1 / c⟩) := by
    have hx : addV [1] ([-c].map fun a => 1 / c * a) = .ok [(0 : ℝ)] := by
      have : 1 + 1 / c * -c = 0 := by field_simp; norm_num
      simp only [addV, List.map_cons, List.map_nil, List.length_cons, List.length_nil, if_true, List.zipWith_cons_cons,
        List.zipWith_nil_left, this]
    unfold LBFGS.probe
    rw [hx, Res.bind_ok]
    dsimp only
    rw [hev 0, Res.bind_ok, hg0, Res.bind_ok]
    unfold LBFGS.verdict
    rw [if_neg (by
      change ¬ f0 > f1 + 1 / c * (0 * (-c * c))
      rw [zero_mul, mul_zero, add_zero]
      exact not_lt.mpr hle), if_pos (show (lbfgsParams m).search.condition = "ARMIJO" from rfl), Res.bind_ok]
  have hopt : LBFGS.optimize Real.sqrt (lbfgsParams m) junk 1 ⟨logEvaluate 0, logGradient 0⟩ ⟨1, [[1], [1]]⟩ [0, 1] [1] =
      .ok (some [0]) := by
    unfold LBFGS.optimize
    rw [show LBFGS.policyOf (lbfgsParams m).policy = .ok .backtracking from rfl, Res.bind_ok]
    dsimp only
    rw [hev 1, Res.bind_ok, hg1, Res.bind_ok, show (lbfgsParams m).tol = 1 / 100 from rfl, hconv1,
      if_neg (by decide), List.map_cons, List.map_nil, hn1, abs_neg, abs_of_pos hc0, LBFGS.quot, if_neg hc0.ne', Res.bind_ok]
    have hit : LBFGS.iteration Real.sqrt .backtracking (lbfgsParams m) ⟨logEvaluate 0, logGradient 0⟩ ⟨1, [[1], [1]]⟩ [0, 1]
        (LBFGS.initial (lbfgsParams m) junk [1] [c] f1 (1 / c)) = .ok (.inl [0]) := by
      have hs : LBFGS.search .backtracking (lbfgsParams m).search ⟨logEvaluate 0, logGradient 0⟩ ⟨1, [[1], [1]]⟩ [0, 1] f1 [c] [-c]
          (1 / c) [1] = .ok (some ⟨1, [0], f0, [0], 1 / c⟩) := by
        unfold LBFGS.search
        rw [if_neg (not_le.mpr (by positivity)), LBFGS.dot,
          if_pos (show [-c].length = [c].length from rfl), Res.bind_ok,
          show dotL [-c] [c] = -c * c by simp [dotL], if_neg (not_lt.mpr (by nlinarith)),
          show (lbfgsParams m).search.maxLinesearch - 1 = 2 from rfl, LBFGS.searchLoop, hprobe, Res.bind_ok, if_pos rfl]
      unfold LBFGS.iteration
      change (LBFGS.search .backtracking (lbfgsParams m).search ⟨logEvaluate 0, logGradient 0⟩ ⟨1, [[1], [1]]⟩ [0, 1] f1 [c] [-c]
          (1 / c) [1]).bind _ = _
      rw [hs]
      change (if LBFGS.converged Real.sqrt (1 / 100) [0] [0] = true then _ else _) = _
      rw [hconv0, if_pos rfl]
    rw [LBFGS.mainLoop, hit]
    rfl
  change (LBFGS.optimize Real.sqrt (lbfgsParams m) junk 1 ⟨logEvaluate 0, logGradient 0⟩ ⟨1, [[1], [1]]⟩ [0, 1] [1]).bind _ = _
  rw [hopt]
  rfl

end OpenML
