import Verif.Model.Defaults
import Verif.Props.LinearFit
import Verif.Props.TruncatedSVD
import Verif.Props.LogisticObject

/-!
C120: estimators with default parameters.
-/

namespace OpenML

open OpenML.SGD OpenML.LinearFit OpenML.Loss

namespace Defaults

section
variable {α W S : Type} [Field α] [LinearOrder α] [IsStrictOrderedRing α] (loss : LossFn α W) (weights : S → W) (step : Step α S)

/-- Epochs without a batch: nothing changes until the run is declared converged. -/
theorem epochLoop_empty (p : Params α) (hb : p.batchSize ≠ 0) (hd : ∀ i, ∃ lr, p.decay i = .ok lr) (ht : 0 < p.tol) (N : Nat)
    (hp : ∀ q, p.shuffle = some q → ∀ i, (q i).Perm (List.range N)) (s : S) (n : Nat) :
    ∀ (iter : Nat) (X : DMat α) (y : List α) (c : Nat), X.WF → y.length = X.nrows → X.nrows = N → c < p.noChange →
      epochLoop loss weights step p 0 n iter X y s (some 0) c =
        if p.noChange ≤ c + n then .ok (weights s) else .throw .runtimeError := by
  have hs : (0 : α) < p.tol * (p.batchSize : α) := mul_pos ht (by exact_mod_cast Nat.pos_of_ne_zero hb)
  induction n with
  | zero =>
    intro iter X y c _ _ _ hc
    rw [epochLoop, if_neg (by omega)]
  | succ n ih =>
    intro iter X y c hX hy hN hc
    obtain ⟨d, hd1, hc1, hw1, hl1, -, hn1⟩ := C47_shuffle_pairs p.shuffle iter X hX y hy (fun q hq => by rw [hN]; exact hp q hq iter)
    obtain ⟨lr, hlr⟩ := hd iter
    rw [epochLoop, epoch, hd1, Res.bind_ok, hlr, Res.bind_ok, batchLoop, Res.bind_ok, Res.bind_ok]
    dsimp only [List.sum_nil]
    have hw : worse p (some (0 : α)) 0 = true := by
      unfold worse
      dsimp only
      rw [decide_eq_true_iff]
      linarith
    rw [hw, if_pos rfl]
    by_cases h : p.noChange ≤ c + 1
    · rw [if_pos h, if_pos (by omega)]
    · rw [if_neg h]
      have hbest : newBest (some (0 : α)) 0 = 0 := by simp [newBest]
      rw [hbest, ih (iter + 1) d.1 d.2 (c + 1) hw1 hl1 (hn1.trans hN) (by omega)]
      congr 1
      rw [eq_iff_iff]
      constructor <;> intro h <;> omega

/-- With fewer samples than a batch and any shuffles the initial weights are published. -/
theorem optimize_empty (p : Params α) (hd : ∀ i, ∃ lr, p.decay i = .ok lr) (ht : 0 < p.tol) (X : DMat α) (hX : X.WF)
    (y : List α) (hy : y.length = X.nrows) (hp : ∀ q, p.shuffle = some q → ∀ i, (q i).Perm (List.range X.nrows))
    (hlt : X.nrows < p.batchSize) (hm : p.noChange < p.maxIter) (s : S) : optimize loss weights step p X y s = .ok (weights s) := by
  have hb : p.batchSize ≠ 0 := by omega
  obtain ⟨n, hn⟩ := Nat.exists_eq_succ_of_ne_zero (show p.maxIter ≠ 0 by omega)
  obtain ⟨d, hd1, hc1, hw1, hl1, -, hn1⟩ := C47_shuffle_pairs p.shuffle 0 X hX y hy (fun q hq => hp q hq 0)
  obtain ⟨lr, hlr⟩ := hd 0
  rw [optimize, if_neg hb, Nat.div_eq_of_lt hlt, hn, epochLoop, epoch, hd1, Res.bind_ok, hlr, Res.bind_ok, batchLoop, Res.bind_ok,
    Res.bind_ok]
  dsimp only [List.sum_nil]
  rw [show worse p (none : Option α) 0 = false from rfl]
  by_cases h0 : p.noChange = 0
  · rw [if_pos (by simp [h0])]
  · rw [if_neg (by simp; omega)]
    have hbest : newBest (none : Option α) 0 = 0 := rfl
    rw [hbest, if_neg (by simp), epochLoop_empty loss weights step p hb hd ht X.nrows hp s n 1 d.1 d.2 0 hw1 hl1 hn1 (by omega),
      if_pos (by omega)]

end

theorem stepDecay_total (b g : ℝ) (i : Nat) : ∃ lr, stepDecay b g 10 i = .ok lr := ⟨_, if_neg (by decide)⟩

end Defaults

open Defaults

section

variable (perms : Nat → List Nat) (X : DMat ℝ) (hX : X.WF) (y : List ℝ) (hy : y.length = X.nrows)
  (hp : ∀ i, (perms i).Perm (List.range X.nrows))
include hX hy hp

/-- C120: a default `LassoRegression` cannot be trained: on all data the first matrix product has mismatching dimensions. -/
theorem C120_lasso : Defaults.lasso perms X y = .ub :=
  C57_lasso_intercept 1 0.001 5000 (by decide) (some perms) X hX y hy (fun q hq => by cases hq; exact hp 0)

/-- C120: a default `Perceptron` publishes its random initial weights if there are fewer than 32 samples, and fails otherwise. -/
theorem C120_perceptron (buffer init : List ℝ) (hi : init.length = X.ncols + 1) :
    Defaults.perceptron buffer perms X y init = if X.nrows < 32 then .ok init else .ub := by
  split <;> rename_i h
  · exact optimize_empty _ id _ (perceptronParams perms) (stepDecay_total _ _) (by norm_num [perceptronParams]) X hX y hy
      (fun q hq => by cases hq; exact hp) h (show 5 < 2000 by decide) init
  · obtain ⟨lr, hlr⟩ := stepDecay_total 0.001 0.5 0
    exact C57_perceptron_intercept 0 buffer (perceptronParams perms) (show 32 ≠ 0 by decide) (show 2000 ≠ 0 by decide) lr hlr X hX y hy (not_lt.mp h)
      (fun q hq => by cases hq; exact hp 0) init hi

/-- C120: a default `SoftmaxRegression` gets weights one in all places if there are fewer than four samples, and fails otherwise. -/
theorem C120_softmax : Defaults.softmax perms X y =
    if X.nrows < 4 then .ok ⟨y.dedup.length, List.replicate (X.ncols + 1) (List.replicate y.dedup.length 1)⟩ else .ub := by
  split <;> rename_i h
  · have hn : numClasses y = y.dedup.length := List.card_toFinset y
    rw [← hn]
    exact optimize_empty _ id _ (softmaxParams perms) (stepDecay_total _ _) (by norm_num [softmaxParams]) X hX y hy
      (fun q hq => by cases hq; exact hp) h (show 5 < 2000 by decide) _
  · obtain ⟨lr, hlr⟩ := stepDecay_total 0.01 0.5 0
    exact C57_softmax 0 (softmaxParams perms) (show 4 ≠ 0 by decide) (show 2000 ≠ 0 by decide) lr hlr X hX y hy (not_lt.mp h)
      (fun q hq => by cases hq; exact hp 0)

/-- C120: a default `LogisticRegression` publishes its random initial weights if there are fewer than 16 samples, and otherwise
publishes weights or throws `runtime_error`. -/
theorem C120_logistic (mem : LogisticObject.Members) (junk : Nat → ℝ) (fuel : Nat) (init : List ℝ)
    (hi : init.length = X.ncols + 1) :
    (X.nrows < 16 → Defaults.logistic mem perms junk fuel X y init = .ok init) ∧
    ((∃ w, Defaults.logistic mem perms junk fuel X y init = .ok w) ∨
      Defaults.logistic mem perms junk fuel X y init = .throw .runtimeError) := by
  have hn : (withOnes X).nrows = X.nrows := by simp [withOnes, DMat.nrows]
  have hq : ∀ q, (LogisticObject.sgdParams (LogisticObject.default mem) perms).shuffle = some q →
      ∀ i, (q i).Perm (List.range X.nrows) := by
    intro q hq i
    have : some perms = some q := hq
    cases this
    exact hp i
  have he : Defaults.logistic mem perms junk fuel X y init = sag ⟨logEvaluate 0, logGradient 0⟩ vanillaUpdate
      (LogisticObject.sgdParams (LogisticObject.default mem) perms) (withOnes X) y init :=
    LogisticObject.fit_sag _ _ _ _ _ _ _ (Or.inr rfl) rfl
  constructor
  · intro h
    rw [he, sag]
    rw [optimize_empty _ SagState.w _ (LogisticObject.sgdParams (LogisticObject.default mem) perms) (stepDecay_total _ _)
      (by norm_num [LogisticObject.sgdParams, LogisticObject.default]) (withOnes X) (withOnes_wf X hX) y (hy.trans hn.symm)
      (by rw [hn]; exact hq) (by rw [hn]; exact h) (show 5 < 2000 by decide) _]
  · rw [he]
    exact (sgd_total (⟨logEvaluate 0, logGradient 0⟩ : LossFn ℝ (List ℝ)) (X.ncols + 1)
      (fun X' y' w hX' hy' hc hw => by
        obtain ⟨g, hg, hgl⟩ := logGradient_total 0 X' hX' y' w hy' (hw.trans hc.symm)
        exact ⟨g, hg, hgl.trans hc⟩)
      (fun X' y' w hX' hy' hc hw => logEvaluate_total 0 X' hX' y' w hy' (hw.trans hc.symm))
      (LogisticObject.sgdParams (LogisticObject.default mem) perms) (show 16 ≠ 0 by decide) (stepDecay_total _ _) (withOnes X)
      (withOnes_wf X hX) y (hy.trans hn.symm) rfl (by rw [hn]; exact hq) init hi).2

end

/-- C120: a default `TruncatedSVD` can be fitted to data with exactly four features and at least four samples; it throws if there
are fewer features or samples, and fails with more features. -/
theorem C120_truncated_svd {M N : Nat} {dec : TruncatedSVD.Decompositions} (hd : dec.Correct) (X : Matrix (Fin M) (Fin N) ℝ)
    (Q0 : Matrix (Fin N) (Fin (2 + 2)) ℝ) (hM : 0 < M) (hN : 0 < N) :
    (M < 4 ∨ N < 4 → Defaults.truncatedSVD dec X Q0 = .throw .invalidArgument) ∧
    (4 ≤ M → N = 4 → ∃ f, Defaults.truncatedSVD dec X Q0 = .ok (some f)) ∧
    (4 ≤ M → 4 < N → Defaults.truncatedSVD dec X Q0 = .ub) := by
  obtain ⟨h1, -, h3⟩ := C60_shapes hd X 2 2 4 "LU" Q0 hM hN
  refine ⟨fun h => h1 ?_, fun hm hn => (h3 (Or.inr (by simp)) ?_).1 hn.symm, fun hm hn => (h3 (Or.inr (by simp)) ?_).2 (by omega)⟩
  · rcases h with h | h
    · exact lt_of_le_of_lt (min_le_left _ _) h
    · exact lt_of_le_of_lt (min_le_right _ _) h
  · exact le_min hm hn.ge
  · exact le_min hm hn.le

/-- A default `TruncatedSVD` can be fitted to five samples of four features. -/
example (X : Matrix (Fin 5) (Fin 4) ℝ) : ∃ dec : TruncatedSVD.Decompositions, dec.Correct ∧ ∃ f, Defaults.truncatedSVD dec X 1 = .ok (some f) := by
  obtain ⟨dec, hd⟩ := TruncatedSVD.exists_correct
  exact ⟨dec, hd, (C120_truncated_svd hd X 1 (by norm_num) (by norm_num)).2.1 (by norm_num) rfl⟩

/-- Examples for C120: two samples with one feature and the identity as the only shuffle. Weights [7, -3] are as good as any. -/
example : (⟨1, [[1], [2]]⟩ : DMat ℝ).WF ∧ ([0, 1] : List ℝ).length = (⟨1, [[1], [2]]⟩ : DMat ℝ).nrows ∧
    (∀ i : Nat, ((fun _ => [0, 1] : Nat → List Nat) i).Perm (List.range (⟨1, [[1], [2]]⟩ : DMat ℝ).nrows)) ∧
    Defaults.lasso (fun _ => [0, 1]) ⟨1, [[1], [2]]⟩ [0, 1] = .ub ∧
    Defaults.perceptron [0] (fun _ => [0, 1]) ⟨1, [[1], [2]]⟩ [0, 1] [7, -3] = .ok [7, -3] ∧
    Defaults.logistic LogisticObject.some0 (fun _ => [0, 1]) (fun _ => 0) 0 ⟨1, [[1], [2]]⟩ [0, 1] [7, -3] = .ok [7, -3] := by
  have hX : (⟨1, [[1], [2]]⟩ : DMat ℝ).WF := by
    intro r hr
    simp at hr
    rcases hr with rfl | rfl <;> rfl
  have hp : ∀ i : Nat, ((fun _ => [0, 1] : Nat → List Nat) i).Perm (List.range (⟨1, [[1], [2]]⟩ : DMat ℝ).nrows) :=
    fun _ => List.Perm.refl _
  refine ⟨hX, rfl, hp, C120_lasso _ _ hX _ rfl hp, ?_, (C120_logistic _ _ hX _ rfl hp _ _ _ _ rfl).1 ?_⟩
  · exact (C120_perceptron _ _ hX _ rfl hp _ _ rfl).trans (if_pos (show 2 < 32 by decide))
  · exact (show 2 < 16 by decide)

end OpenML
