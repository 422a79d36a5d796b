import Verif.Spec.LogisticObject
import Verif.Props.LinearFit
import Verif.Props.LBFGS

/-!
C119: which constructors of `LogisticRegression` leave nothing that training reads uninitialised.
-/

namespace OpenML

open OpenML.LogisticObject OpenML.Spec OpenML.SGD OpenML.LinearFit OpenML.Loss

namespace LogisticObject

/-- Two samples without features, one of each class. -/
def two : DMat ℝ := ⟨0, [[], []]⟩

theorem withOnes_two : withOnes two = ⟨1, [[1], [1]]⟩ := rfl

/-- The gradient of the loss on the two samples. -/
theorem gradient_two (lambda v : ℝ) (y : List ℝ) (hy : y = [0, 1] ∨ y = [1, 0]) :
    logGradient lambda ⟨1, [[1], [1]]⟩ y [v] = .ok [Real.sigmoid v - 1 / 2 + v / 2 * lambda] := by
  have h1 : mulVec (⟨1, [[1], [1]]⟩ : DMat ℝ) [v] = .ok [v, v] := by
    simp [mulVec, dotL]
  unfold logGradient
  rw [h1, Res.bind_ok, sigmoidV_eq]
  rcases hy with rfl | rfl <;>
  · simp only [List.map_cons, List.map_nil, subV, List.length_cons, List.length_nil, if_true, List.zipWith_cons_cons,
      List.zipWith_nil_left, Res.bind_ok, tmulVec, DMat.nrows, DMat.cols, penaltyGrad, addV, dotL]
    simp [DMat.col]
    ring

theorem shuffle_two (sh : Option (Nat → List Nat)) (hs : ∀ p, sh = some p → ∀ i, (p i).Perm (List.range 2)) (i : Nat) (y : List ℝ)
    (hy : y = [0, 1] ∨ y = [1, 0]) :
    ∃ y', shuffleXY sh i (⟨1, [[1], [1]]⟩ : DMat ℝ) y = .ok (⟨1, [[1], [1]]⟩, y') ∧ (y' = [0, 1] ∨ y' = [1, 0]) := by
  cases sh with
  | none => exact ⟨y, rfl, hy⟩
  | some p =>
    have hp : p i = [0, 1] ∨ p i = [1, 0] := by
      have h := hs p rfl i
      have hl : (p i).length = 2 := by rw [h.length_eq]; rfl
      obtain ⟨a, b, hab⟩ := List.length_eq_two.mp hl
      rw [hab] at h ⊢
      have h' : List.Perm [a, b] [0, 1] := h
      have ha : a ∈ [0, 1] := h'.subset (by simp)
      have hb : b ∈ [0, 1] := h'.subset (by simp)
      have hn : [a, b].Nodup := h'.nodup_iff.mpr (by simp)
      simp only [List.mem_cons, List.not_mem_nil, or_false] at ha hb
      rcases ha with rfl | rfl <;> rcases hb with rfl | rfl
      · simp at hn
      · exact Or.inl rfl
      · exact Or.inr rfl
      · simp at hn
    rcases hp with hp | hp <;> rcases hy with rfl | rfl
    · exact ⟨[0, 1], by simp [shuffleXY, hp, Data.permuteRows, Data.scatter], Or.inl rfl⟩
    · exact ⟨[1, 0], by simp [shuffleXY, hp, Data.permuteRows, Data.scatter], Or.inr rfl⟩
    · exact ⟨[1, 0], by simp [shuffleXY, hp, Data.permuteRows, Data.scatter], Or.inr rfl⟩
    · exact ⟨[0, 1], by simp [shuffleXY, hp, Data.permuteRows, Data.scatter], Or.inl rfl⟩

/-- One iteration of coordinate descent on the two samples. -/
theorem scdStep_two (lambda r v : ℝ) (y : List ℝ) (hy : y = [0, 1] ∨ y = [1, 0]) (g : ℝ)
    (hg : g = Real.sigmoid v - 1 / 2 + v / 2 * lambda) :
    SCD.scdStep ⟨logEvaluate lambda, logGradient lambda⟩ r lambda ⟨1, [[1], [1]]⟩ y [v] =
      .ok [if SCD.predDescent r lambda v g (SCD.eta r lambda v g) > -1 then v + SCD.eta r lambda v g else v] := by
  unfold SCD.scdStep
  dsimp only
  rw [gradient_two lambda v y hy, Res.bind_ok, if_pos (by simp), ← hg]
  simp only [List.take_succ_cons, List.take_zero, SCD.bestCoord]
  split <;> simp [readAt]

/-- Coordinate descent stays where an iteration does not move. -/
theorem scdLoop_fixed (lambda r v : ℝ) (sh : Option (Nat → List Nat)) (hs : ∀ p, sh = some p → ∀ i, (p i).Perm (List.range 2))
    (h : ∀ y, (y = [0, 1] ∨ y = [1, 0]) →
      SCD.scdStep ⟨logEvaluate lambda, logGradient lambda⟩ r lambda ⟨1, [[1], [1]]⟩ y [v] = .ok [v]) (n : Nat) :
    ∀ (i : Nat) (y : List ℝ), (y = [0, 1] ∨ y = [1, 0]) →
      SCD.scdLoop ⟨logEvaluate lambda, logGradient lambda⟩ r lambda sh n i ⟨1, [[1], [1]]⟩ y [v] = .ok [v] := by
  induction n with
  | zero => intro i y _; rfl
  | succ n ih =>
    intro i y hy
    obtain ⟨y', he, hy'⟩ := shuffle_two sh hs i y hy
    rw [SCD.scdLoop, he, Res.bind_ok]
    dsimp only
    rw [h y' hy', Res.bind_ok]
    exact ih (i + 1) y' hy'

theorem sigmoid_pos_sub : 0 < Real.sigmoid 1 - 1 / 2 := by
  have h : Real.sigmoid 0 < Real.sigmoid 1 := Real.sigmoid_strictMono (by norm_num)
  rw [Real.sigmoid_zero] at h
  norm_num at h ⊢
  linarith

/-- With one value of the ratio coordinate descent jumps to zero and stays there. -/
theorem scd_zero (lambda : ℝ) (hl : 0 ≤ lambda) (sh : Option (Nat → List Nat))
    (hs : ∀ p, sh = some p → ∀ i, (p i).Perm (List.range 2)) (n : Nat) (hn : n ≠ 0) :
    SCD.scd ⟨logEvaluate lambda, logGradient lambda⟩ (Real.sigmoid 1 - 1 / 2 + 1 / 2 * lambda) lambda n sh ⟨1, [[1], [1]]⟩ [0, 1] [1] =
      .ok [0] := by
  obtain ⟨n, rfl⟩ := Nat.exists_eq_succ_of_ne_zero hn
  have hp := sigmoid_pos_sub
  set g := Real.sigmoid 1 - 1 / 2 + 1 / 2 * lambda with hg
  have hg0 : 0 < g := by have : 0 ≤ 1 / 2 * lambda := by positivity
                         linarith
  have hq : 0 ≤ lambda / g := by positivity
  obtain ⟨y', he, hy'⟩ := shuffle_two sh hs 0 [0, 1] (Or.inl rfl)
  rw [SCD.scd, SCD.scdLoop, he, Res.bind_ok]
  dsimp only
  rw [scdStep_two lambda g 1 y' hy' g hg]
  have he1 : SCD.eta g lambda 1 g = -1 := by
    unfold SCD.eta
    rw [div_self hg0.ne', if_neg (by linarith), if_neg (by rw [neg_div]; linarith)]
  rw [he1, if_pos (by unfold SCD.predDescent; norm_num; nlinarith), Res.bind_ok]
  have h1 : (1 : ℝ) + -1 = 0 := by norm_num
  rw [h1]
  refine scdLoop_fixed lambda g 0 sh hs (fun y hy => ?_) n 1 y' hy'
  rw [scdStep_two lambda g 0 y hy 0 (by rw [Real.sigmoid_zero]; norm_num)]
  have he0 : SCD.eta g lambda 0 0 = 0 := by
    unfold SCD.eta
    rw [zero_div, if_neg (by linarith), if_neg (by rw [neg_div]; linarith), neg_zero]
  rw [he0]
  simp

/-- With another value of the ratio it never moves. -/
theorem scd_still (lambda : ℝ) (hl : 0 ≤ lambda) (n : Nat) :
    ∃ r ≠ 0, ∀ (sh : Option (Nat → List Nat)), (∀ p, sh = some p → ∀ i, (p i).Perm (List.range 2)) →
      SCD.scd ⟨logEvaluate lambda, logGradient lambda⟩ r lambda n sh ⟨1, [[1], [1]]⟩ [0, 1] [1] = .ok [1] := by
  have hp := sigmoid_pos_sub
  set g := Real.sigmoid 1 - 1 / 2 + 1 / 2 * lambda with hg
  have hg0 : 0 < g := by have : 0 ≤ 1 / 2 * lambda := by positivity
                         linarith
  have hG : 0 < g + lambda := by linarith
  have hr : 0 < (g + lambda) ^ 2 / 2 := by positivity
  refine ⟨-((g + lambda) ^ 2 / 2), by linarith, fun sh hs => ?_⟩
  refine scdLoop_fixed lambda _ 1 sh hs (fun y hy => ?_) n 0 [0, 1] (Or.inl rfl)
  rw [scdStep_two lambda _ 1 y hy g hg]
  have he : SCD.eta (-((g + lambda) ^ 2 / 2)) lambda 1 g = 2 / (g + lambda) := by
    unfold SCD.eta
    rw [if_pos]
    · field_simp
      ring
    · rw [div_neg, div_neg]
      have h1 : 0 ≤ lambda / ((g + lambda) ^ 2 / 2) := by positivity
      have h2 : 0 < g / ((g + lambda) ^ 2 / 2) := by positivity
      linarith
  rw [he, if_neg]
  have h2 : 0 < 2 / (g + lambda) := by positivity
  unfold SCD.predDescent
  rw [abs_of_pos (by linarith), abs_one, not_lt]
  have : -(2 / (g + lambda)) * g - -((g + lambda) ^ 2 / 2) / 2 * (2 / (g + lambda)) * (2 / (g + lambda)) -
      lambda * (1 + 2 / (g + lambda)) + lambda * 1 = -1 := by
    field_simp
    ring
  exact this.le

/-- L-BFGS keeps the number of weights. -/
theorem mainLoop_length (policy : LBFGS.Policy) (p : LBFGS.Params ℝ) (loss : LossFn ℝ (List ℝ)) (X : DMat ℝ) (y : List ℝ)
    (fuel : Nat) : ∀ (st : LBFGS.State ℝ) (x : List ℝ), LBFGS.mainLoop Real.sqrt policy p loss X y fuel st = .ok x →
      x.length = st.x.length := by
  induction fuel with
  | zero => intro st x h; cases h
  | succ n ih =>
    intro st x h
    rw [LBFGS.mainLoop] at h
    obtain ⟨r, hr, h⟩ := Res.bind_eq_ok.mp h
    unfold LBFGS.iteration at hr
    obtain ⟨ls, hls, hr⟩ := Res.bind_eq_ok.mp hr
    cases ls with
    | none =>
      cases hr
      dsimp only at h
      cases h
      rfl
    | some q =>
      have hq := (LBFGS.search_lengths hls).2.2
      dsimp only at hr
      split at hr
      · cases hr
        dsimp only at h
        cases h
        exact hq
      · obtain ⟨t, ht, hr⟩ := Res.bind_eq_ok.mp hr
        cases t with
        | none =>
          cases hr
          dsimp only at h
          cases h
          exact hq
        | some pfx =>
          dsimp only at hr
          split at hr
          · cases hr
            dsimp only at h
            cases h
            exact hq
          · obtain ⟨st', hu, hr⟩ := Res.bind_eq_ok.mp hr
            cases hr
            dsimp only at h
            rw [ih st' x h]
            unfold LBFGS.update at hu
            obtain ⟨a1, _, hu⟩ := Res.bind_eq_ok.mp hu
            obtain ⟨a2, _, hu⟩ := Res.bind_eq_ok.mp hu
            obtain ⟨a3, _, hu⟩ := Res.bind_eq_ok.mp hu
            obtain ⟨a4, _, hu⟩ := Res.bind_eq_ok.mp hu
            obtain ⟨a5, _, hu⟩ := Res.bind_eq_ok.mp hu
            obtain ⟨a6, _, hu⟩ := Res.bind_eq_ok.mp hu
            cases hu
            exact hq

/-- L-BFGS with a known policy on the two samples: there are two values of `lambda` with different outcomes. -/
theorem lbfgs_two (p : LBFGS.Params ℝ) (ht : 0 ≤ p.tol) (hp : p.policy = "backtracking" ∨ p.policy = "bracketing") :
    ∃ l l' : ℝ, ∀ junk fuel,
      (do let r ← LBFGS.optimize Real.sqrt p junk fuel ⟨logEvaluate l, logGradient l⟩ ⟨1, [[1], [1]]⟩ [0, 1] [1]
          .ok (r.getD [])) ≠
      ((do let r ← LBFGS.optimize Real.sqrt p junk fuel ⟨logEvaluate l', logGradient l'⟩ ⟨1, [[1], [1]]⟩ [0, 1] [1]
           .ok (r.getD [])) : Res (List ℝ)) := by
  have hpol : ∃ q, LBFGS.policyOf p.policy = .ok q := by
    rcases hp with h | h <;> rw [h] <;> exact ⟨_, rfl⟩
  obtain ⟨q, hq⟩ := hpol
  have hev : ∀ l : ℝ, ∃ f, logEvaluate l (⟨1, [[1], [1]]⟩ : DMat ℝ) [0, 1] [1] = .ok f := fun l =>
    logEvaluate_total l _ (by intro r hr; simp at hr; simp [hr]) _ _ rfl rfl
  have hn1 : ∀ a : ℝ, LBFGS.norm Real.sqrt [a] = |a| := by
    intro a
    rw [LBFGS.norm, show dotL [a] [a] = a ^ 2 by simp [dotL, pow_two], Real.sqrt_sq_eq_abs]
  have hconv : ∀ a : ℝ, LBFGS.converged Real.sqrt p.tol [1] [a] = decide (|a| ≤ p.tol) := by
    intro a
    unfold LBFGS.converged
    dsimp only
    rw [hn1, hn1, abs_one, if_neg (lt_irrefl _), div_one]
  set c := Real.sigmoid 1 - 1 / 2 with hc
  refine ⟨-(2 * c), 2 * (p.tol + 1 - c), fun junk fuel h => ?_⟩
  obtain ⟨f, hf⟩ := hev (-(2 * c))
  obtain ⟨f', hf'⟩ := hev (2 * (p.tol + 1 - c))
  have h1 : LBFGS.optimize Real.sqrt p junk fuel ⟨logEvaluate (-(2 * c)), logGradient (-(2 * c))⟩ ⟨1, [[1], [1]]⟩ [0, 1] [1] =
      .ok none := by
    unfold LBFGS.optimize
    rw [hq, Res.bind_ok]
    dsimp only
    rw [hf, Res.bind_ok, gradient_two _ _ _ (Or.inl rfl), Res.bind_ok, hconv, if_pos]
    rw [decide_eq_true_iff, ← hc, show c + 1 / 2 * -(2 * c) = 0 by ring, abs_zero]
    exact ht
  rw [h1, Res.bind_ok] at h
  unfold LBFGS.optimize at h
  rw [hq, Res.bind_ok] at h
  dsimp only at h
  rw [hf', Res.bind_ok, gradient_two _ _ _ (Or.inl rfl), Res.bind_ok, hconv, if_neg] at h
  · obtain ⟨o, ho, h⟩ := Res.bind_eq_ok.mp h.symm
    obtain ⟨st, -, ho⟩ := Res.bind_eq_ok.mp ho
    obtain ⟨x, hx, ho⟩ := Res.bind_eq_ok.mp ho
    cases ho
    have hl := mainLoop_length _ _ _ _ _ _ _ _ hx
    injection h with h
    simp only [Option.getD_some, Option.getD_none] at h
    rw [h] at hl
    simp [LBFGS.initial] at hl
  · rw [decide_eq_true_iff, ← hc, show c + 1 / 2 * (2 * (p.tol + 1 - c)) = p.tol + 1 by ring, abs_of_pos (by linarith)]
    linarith

section cases

variable (m : Members) (perms : Nat → List Nat) (junk : Nat → ℝ) (fuel : Nat) (X : DMat ℝ) (y init : List ℝ)

theorem fit_sgd (hp : m.penalty = "l2" ∨ m.penalty = "None") (hs : m.solver = "sgd") :
    fit m perms junk fuel X y init =
      sgd ⟨logEvaluate m.lambda, logGradient m.lambda⟩ clipGrad vanillaUpdate (sgdParams m perms) (withOnes X) y init := by
  unfold fit fitLogistic
  dsimp only
  rw [if_pos hp, if_pos hs]

theorem fit_sag (hp : m.penalty = "l2" ∨ m.penalty = "None") (hs : m.solver = "sag") :
    fit m perms junk fuel X y init =
      sag ⟨logEvaluate m.lambda, logGradient m.lambda⟩ vanillaUpdate (sgdParams m perms) (withOnes X) y init := by
  unfold fit fitLogistic
  dsimp only
  rw [if_pos hp, if_neg (by rw [hs]; decide), if_pos hs]

theorem fit_lbfgs (hp : m.penalty = "l2" ∨ m.penalty = "None") (hs : m.solver = "lbfgs") :
    fit m perms junk fuel X y init = (do
      let r ← LBFGS.optimize Real.sqrt (lbfgsParams m) junk fuel ⟨logEvaluate m.lambda, logGradient m.lambda⟩ (withOnes X) y init
      .ok (r.getD [])) := by
  unfold fit fitLogistic
  dsimp only
  rw [if_pos hp, if_neg (by rw [hs]; decide), if_neg (by rw [hs]; decide), if_pos hs]

theorem fit_scd (hp : m.penalty = "l1") (hs : m.solver = "scd") :
    fit m perms junk fuel X y init = SCD.scd ⟨logEvaluate m.lambda, logGradient m.lambda⟩ m.l1Ratio m.lambda m.maxIter
      (sgdParams m perms).shuffle (withOnes X) y init := by
  unfold fit fitLogistic
  dsimp only
  rw [hp, if_neg (by decide), if_pos rfl, if_pos hs]
  rfl

theorem fit_unsupported (h : ¬ Supported m.penalty m.solver) : fit m perms junk fuel X y init = .throw .invalidArgument := by
  unfold fit fitLogistic
  dsimp only
  by_cases hp : m.penalty = "l2" ∨ m.penalty = "None"
  · rw [if_pos hp, if_neg (fun hs => h (Or.inl ⟨hp, Or.inl hs⟩)), if_neg (fun hs => h (Or.inl ⟨hp, Or.inr (Or.inl hs)⟩)),
      if_neg (fun hs => h (Or.inl ⟨hp, Or.inr (Or.inr hs)⟩))]
  · rw [if_neg hp]
    by_cases h1 : m.penalty = "l1"
    · rw [if_pos h1, if_neg (fun hs => h (Or.inr ⟨h1, hs⟩))]
    · rw [if_neg h1]

theorem fit_lbfgs_unknown (hp : m.penalty = "l2" ∨ m.penalty = "None") (hs : m.solver = "lbfgs")
    (h : ¬ (m.policy = "backtracking" ∨ m.policy = "bracketing")) : fit m perms junk fuel X y init = .throw .invalidArgument := by
  push Not at h
  have ht : LBFGS.policyOf (lbfgsParams m).policy = .throw .invalidArgument := by
    change LBFGS.policyOf m.policy = _
    rw [LBFGS.policyOf, if_neg h.1, if_neg h.2]
  rw [fit_lbfgs m perms junk fuel X y init hp hs, LBFGS.optimize, ht]
  rfl

end cases

/-- Any content of the memory. -/
noncomputable def some0 : Members :=
  ⟨false, false, 0, 0, 0, 0, 0, 0, 0, 0, 0, 0, 0, 0, 0, "", "", "", ""⟩

theorem two_facts : two.WF ∧ 0 < two.nrows ∧ ([0, 1] : List ℝ).length = two.nrows ∧ (∀ a ∈ ([0, 1] : List ℝ), a = 0 ∨ a = 1) ∧
    ([1] : List ℝ).length = two.ncols + 1 := by
  refine ⟨?_, by decide, rfl, ?_, rfl⟩
  · intro r hr
    simp [two] at hr
    simp [hr, two]
  · intro a ha
    simpa using ha

/-- Without a batch size SGD and SAG are undefined, with one they are not. -/
theorem sgd_batch (build : Members → Members) (hpen : ∀ m, (build m).penalty = "l2" ∨ (build m).penalty = "None")
    (hsol : ∀ m, (build m).solver = "sgd" ∨ (build m).solver = "sag") (hb : ∀ m, (build m).batchSize = m.batchSize) :
    Undetermined build := by
  obtain ⟨h1, h2, h3, h4, h5⟩ := two_facts
  refine ⟨some0, { some0 with batchSize := 1 }, two, [0, 1], [1], h1, h2, h3, h4, h5, fun perms junk fuel hp h => ?_⟩
  have hz : fit (build some0) perms junk fuel two [0, 1] [1] = .ub := by
    have hb0 : (sgdParams (build some0) perms).batchSize = 0 := hb some0
    unfold fit fitLogistic
    dsimp only
    rw [if_pos (hpen _)]
    rcases hsol some0 with hs | hs
    · rw [if_pos hs, sgd, optimize, if_pos hb0]
    · rw [if_neg (by rw [hs]; decide), if_pos hs, sag, optimize, if_pos hb0]
  have hsup : Supported (build { some0 with batchSize := 1 }).penalty (build { some0 with batchSize := 1 }).solver :=
    Or.inl ⟨hpen _, by rcases hsol { some0 with batchSize := 1 } with hs | hs <;> simp [hs]⟩
  have hne : (build { some0 with batchSize := 1 }).solver ≠ "lbfgs" := by
    rcases hsol { some0 with batchSize := 1 } with hs | hs <;> rw [hs] <;> decide
  have hlb : ∀ (l : LossFn ℝ (List ℝ)) (X : DMat ℝ) (y w : List ℝ), (Res.ub : Res (List ℝ)) ≠ .throw .invalidArgument := by
    intros; simp
  have ht := (C80_solver_penalty (build { some0 with batchSize := 1 }).lambda (build { some0 with batchSize := 1 }).l1Ratio
    (build { some0 with batchSize := 1 }).penalty (build { some0 with batchSize := 1 }).solver
    (sgdParams (build { some0 with batchSize := 1 }) perms)
    (by rw [show (sgdParams (build { some0 with batchSize := 1 }) perms).batchSize = _ from hb _]; decide)
    (fun i => ⟨_, show stepDecay _ _ 10 i = _ from if_neg (by decide)⟩) (fun _ _ _ _ => .ub) hlb two h1 [0, 1] h3
    (fun q hq i => by
      simp only [sgdParams] at hq
      split at hq
      · cases hq; exact hp i
      · cases hq) [1] h5).2 hsup hne
  have heq : fit (build { some0 with batchSize := 1 }) perms junk fuel two [0, 1] [1] =
      fitLogistic (build { some0 with batchSize := 1 }).lambda (build { some0 with batchSize := 1 }).l1Ratio
        (build { some0 with batchSize := 1 }).penalty (build { some0 with batchSize := 1 }).solver
        (sgdParams (build { some0 with batchSize := 1 }) perms) (fun _ _ _ _ => .ub) two [0, 1] [1] := by
    unfold fit fitLogistic
    dsimp only
    rw [if_neg hne, if_neg hne]
  rw [hz, heq] at h
  rcases ht with ⟨w, hw⟩ | ⟨-, hw⟩
  · rw [hw] at h; cases h
  · rw [hw] at h; cases h

/-- Coordinate descent depends on the ratio. -/
theorem scd_ratio (build : Members → Members) (hpen : ∀ m, (build m).penalty = "l1") (hsol : ∀ m, (build m).solver = "scd")
    (lambda : ℝ) (hl : 0 ≤ lambda) (hlam : ∀ m, m.lambda = lambda → (build m).lambda = lambda)
    (hr : ∀ m, (build m).l1Ratio = m.l1Ratio) (n : Nat) (hn : n ≠ 0) (hm : ∀ m, (build m).maxIter = n) : Undetermined build := by
  obtain ⟨h1, h2, h3, h4, h5⟩ := two_facts
  have hstill : ∃ r ≠ 0, ∀ (sh : Option (Nat → List Nat)), (∀ p, sh = some p → ∀ i, (p i).Perm (List.range 2)) →
      SCD.scd ⟨logEvaluate lambda, logGradient lambda⟩ r lambda n sh ⟨1, [[1], [1]]⟩ [0, 1] [1] = .ok [1] :=
    scd_still lambda hl n
  obtain ⟨r, -, hr1⟩ := hstill
  refine ⟨{ some0 with lambda := lambda, l1Ratio := r },
    { some0 with lambda := lambda, l1Ratio := Real.sigmoid 1 - 1 / 2 + 1 / 2 * lambda }, two, [0, 1], [1], h1, h2, h3, h4, h5,
    fun perms junk fuel hp h => ?_⟩
  have key : ∀ m : Members, m.lambda = lambda → ∃ sh : Option (Nat → List Nat), (∀ p, sh = some p → ∀ i, (p i).Perm (List.range 2)) ∧
      fit (build m) perms junk fuel two [0, 1] [1] =
        SCD.scd ⟨logEvaluate lambda, logGradient lambda⟩ m.l1Ratio lambda n sh ⟨1, [[1], [1]]⟩ [0, 1] [1] := by
    intro m hml
    refine ⟨(sgdParams (build m) perms).shuffle, fun q hq i => ?_, ?_⟩
    · simp only [sgdParams] at hq
      split at hq
      · cases hq; exact hp i
      · cases hq
    · unfold fit fitLogistic
      dsimp only
      rw [hpen m, if_neg (by decide), if_pos rfl, if_pos (hsol m), hlam m hml, hr m, withOnes_two,
        show (sgdParams (build m) perms).maxIter = n from hm m]
  obtain ⟨sh, hs, he⟩ := key { some0 with lambda := lambda, l1Ratio := r } rfl
  obtain ⟨sh', hs', he'⟩ := key { some0 with lambda := lambda, l1Ratio := Real.sigmoid 1 - 1 / 2 + 1 / 2 * lambda } rfl
  rw [he, he', hr1 sh hs, scd_zero lambda hl sh' hs' n hn] at h
  simp at h

end LogisticObject

/-- C119: an object from the default constructor is trained independently of uninitialised memory. -/
theorem C119_default : Determined LogisticObject.default := by
  intro mem mem' perms junk fuel X y init
  rw [fit_sag _ _ _ _ _ _ _ (Or.inr rfl) rfl, fit_sag _ _ _ _ _ _ _ (Or.inr rfl) rfl]
  rfl

/-- C119: with the constructor for SGD and SAG only coordinate descent reads uninitialised memory, namely the ratio. -/
theorem C119_gradient (alpha lambda tol : ℝ) (batchSize maxIter noChange : Nat) (solver penalty : String) (shuffle verbose : Bool) :
    (0 ≤ lambda → penalty = "l1" ∧ solver = "scd" ∧ maxIter ≠ 0 →
      Undetermined (gradient alpha lambda tol batchSize maxIter noChange solver penalty shuffle verbose)) ∧
    (¬ (penalty = "l1" ∧ solver = "scd" ∧ maxIter ≠ 0) →
      Determined (gradient alpha lambda tol batchSize maxIter noChange solver penalty shuffle verbose)) := by
  constructor
  · rintro hl ⟨rfl, rfl, hn⟩
    exact scd_ratio _ (fun _ => rfl) (fun _ => rfl) lambda hl (fun _ _ => rfl) (fun _ => rfl) maxIter hn (fun _ => rfl)
  · intro h mem mem' perms junk fuel X y init
    by_cases hsup : Supported penalty solver
    · rcases hsup with ⟨hp, rfl | rfl | rfl⟩ | ⟨rfl, rfl⟩
      · rw [fit_sgd _ _ _ _ _ _ _ hp rfl, fit_sgd _ _ _ _ _ _ _ hp rfl]
        rfl
      · rw [fit_sag _ _ _ _ _ _ _ hp rfl, fit_sag _ _ _ _ _ _ _ hp rfl]
        rfl
      · have hq : ¬ ("" = "backtracking" ∨ "" = "bracketing") := by decide
        rw [fit_lbfgs_unknown _ _ _ _ _ _ _ hp rfl hq, fit_lbfgs_unknown _ _ _ _ _ _ _ hp rfl hq]
      · have hm : maxIter = 0 := by
          by_contra hm
          exact h ⟨rfl, rfl, hm⟩
        subst hm
        rw [fit_scd _ _ _ _ _ _ _ rfl rfl, fit_scd _ _ _ _ _ _ _ rfl rfl]
        rfl
    · rw [fit_unsupported _ _ _ _ _ _ _ hsup, fit_unsupported _ _ _ _ _ _ _ hsup]

/-- C119: with the constructor for coordinate descent exactly SGD and SAG read uninitialised memory. -/
theorem C119_coordinate (lambda l1Ratio : ℝ) (maxIter : Nat) (solver penalty : String) (shuffle verbose : Bool) :
    ((penalty = "l2" ∨ penalty = "None") ∧ (solver = "sgd" ∨ solver = "sag") →
      Undetermined (coordinate lambda l1Ratio maxIter solver penalty shuffle verbose)) ∧
    (¬ ((penalty = "l2" ∨ penalty = "None") ∧ (solver = "sgd" ∨ solver = "sag")) →
      Determined (coordinate lambda l1Ratio maxIter solver penalty shuffle verbose)) := by
  constructor
  · rintro ⟨hp, hs⟩
    exact sgd_batch _ (fun _ => hp) (fun _ => hs) (fun _ => rfl)
  · intro h mem mem' perms junk fuel X y init
    by_cases hsup : Supported penalty solver
    · rcases hsup with ⟨hp, rfl | rfl | rfl⟩ | ⟨rfl, rfl⟩
      · exact absurd ⟨hp, Or.inl rfl⟩ h
      · exact absurd ⟨hp, Or.inr rfl⟩ h
      · have hq : ¬ ("" = "backtracking" ∨ "" = "bracketing") := by decide
        rw [fit_lbfgs_unknown _ _ _ _ _ _ _ hp rfl hq, fit_lbfgs_unknown _ _ _ _ _ _ _ hp rfl hq]
      · rw [fit_scd _ _ _ _ _ _ _ rfl rfl, fit_scd _ _ _ _ _ _ _ rfl rfl]
        rfl
    · rw [fit_unsupported _ _ _ _ _ _ _ hsup, fit_unsupported _ _ _ _ _ _ _ hsup]

/-- C119: with the constructor for L-BFGS every accepted solver reads uninitialised memory: L-BFGS the strength of the penalty. -/
theorem C119_quasi_newton (tol ftol delta wolfe : ℝ) (maxIter memSize past maxLinesearch : Nat)
    (solver penalty policy condition : String) (shuffle verbose : Bool) :
    (0 ≤ tol → Supported penalty solver ∧ (solver = "lbfgs" → policy = "backtracking" ∨ policy = "bracketing") ∧
        (solver = "scd" → maxIter ≠ 0) →
      Undetermined (quasiNewton tol ftol delta wolfe maxIter memSize past maxLinesearch solver penalty policy condition shuffle
        verbose)) ∧
    (¬ (Supported penalty solver ∧ (solver = "lbfgs" → policy = "backtracking" ∨ policy = "bracketing") ∧
        (solver = "scd" → maxIter ≠ 0)) →
      Determined (quasiNewton tol ftol delta wolfe maxIter memSize past maxLinesearch solver penalty policy condition shuffle
        verbose)) := by
  constructor
  · rintro ht ⟨⟨hpen, hs⟩ | ⟨rfl, rfl⟩, hpol, hn⟩
    · by_cases hlb : solver = "lbfgs"
      · subst hlb
        obtain ⟨h1, h2, h3, h4, h5⟩ := two_facts
        obtain ⟨l, l', hne⟩ := lbfgs_two (lbfgsParams (quasiNewton tol ftol delta wolfe maxIter memSize past maxLinesearch "lbfgs"
          penalty policy condition shuffle verbose some0)) ht (hpol rfl)
        refine ⟨{ some0 with lambda := l }, { some0 with lambda := l' }, two, [0, 1], [1], h1, h2, h3, h4, h5,
          fun perms junk fuel _ h => hne junk fuel ?_⟩
        rw [fit_lbfgs _ _ _ _ _ _ _ hpen rfl, fit_lbfgs _ _ _ _ _ _ _ hpen rfl] at h
        exact h
      · exact sgd_batch _ (fun _ => hpen) (fun _ => by
          rcases hs with h | h | h
          · exact Or.inl h
          · exact Or.inr h
          · exact absurd h hlb) (fun _ => rfl)
    · exact scd_ratio _ (fun _ => rfl) (fun _ => rfl) 0 le_rfl (fun _ h => h) (fun _ => rfl) maxIter (hn rfl) (fun _ => rfl)
  · intro h mem mem' perms junk fuel X y init
    by_cases hsup : Supported penalty solver
    · have hsup' := hsup
      rcases hsup with ⟨hp, rfl | rfl | rfl⟩ | ⟨rfl, rfl⟩
      · exact absurd ⟨hsup', by simp, by simp⟩ h
      · exact absurd ⟨hsup', by simp, by simp⟩ h
      · have hq : ¬ (policy = "backtracking" ∨ policy = "bracketing") := fun hq => h ⟨hsup', fun _ => hq, by simp⟩
        rw [fit_lbfgs_unknown _ _ _ _ _ _ _ hp rfl hq, fit_lbfgs_unknown _ _ _ _ _ _ _ hp rfl hq]
      · have hm : maxIter = 0 := by
          by_contra hm
          exact h ⟨hsup', by simp, fun _ => hm⟩
        subst hm
        rw [fit_scd _ _ _ _ _ _ _ rfl rfl, fit_scd _ _ _ _ _ _ _ rfl rfl]
        rfl
    · rw [fit_unsupported _ _ _ _ _ _ _ hsup, fit_unsupported _ _ _ _ _ _ _ hsup]

/-- Examples for C119: the documented uses of the three constructors. Two of them are determined by their arguments, L-BFGS is
not. -/
example : Determined (gradient 0.1 0 0.0001 16 2000 5 "sgd" "l2" true true) ∧
    Determined (coordinate 0.1 1 1000 "scd" "l1" true true) ∧
    Undetermined (quasiNewton 0.00001 0.0001 0.000001 0.9 100 8 3 40 "lbfgs" "l2" "backtracking" "WOLFE" true true) :=
  ⟨(C119_gradient _ _ _ _ _ _ _ _ _ _).2 (by decide), (C119_coordinate _ _ _ _ _ _ _).2 (by decide),
    (C119_quasi_newton _ _ _ _ _ _ _ _ _ _ _ _ _ _).1 (by norm_num)
      ⟨Or.inl ⟨Or.inl rfl, Or.inr (Or.inr rfl)⟩, fun _ => Or.inl rfl, by decide⟩⟩

end OpenML
