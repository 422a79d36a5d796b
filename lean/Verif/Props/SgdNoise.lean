import Verif.Lemmas.SgdNoise
import Verif.Props.SgdStability

/-!
# C177: mini-batch training of logistic regression with inexact steps
-/

namespace OpenML

open Spec Loss SGD LogStability SgdStability
open scoped BigOperators

/-- C177: two runs of mini-batch gradient descent on the penalised log loss with the same samples, shuffles and learning rates, one exact
and one that computes each step with an error, as if each gradient was wrong by at most `ρ`, and possibly from other initial weights. After
any number of epochs the weights differ by no more than the initial weights did, shrunk by the penalty, plus `ρ` times the number of
batches times the sum of the learning rates; with a penalty `λ` they never differ by more than the initial weights did or
`ρ b / λ` for batches of `b` samples, however many epochs are run and whatever the rates. -/
theorem C177_errors {d : Nat} (lambda R ρ : ℝ) (p : Params ℝ) (eta : Nat → ℝ) (hlam : 0 ≤ lambda) (hb : p.batchSize ≠ 0)
    (he : ∀ i, p.decay i = .ok (eta i)) (h0 : ∀ i, 0 ≤ eta i) (h1 : ∀ i, eta i * (R ^ 2 / 4 + lambda / p.batchSize) ≤ 1)
    (hρ : 0 ≤ ρ) (hR : 2 * (R + ρ) ≤ 10 ^ 10) (l : List (List ℝ × ℝ)) (hl : ∀ s ∈ l, ProperSample d s ∧ rowSize s.1 ≤ R)
    (hp : ∀ q, p.shuffle = some q → ∀ i, (q i).Perm (List.range l.length))
    (w w' : List ℝ) (hw : w.length = d) (hw' : w'.length = d) (hs : lambda * rowSize w ≤ p.batchSize * (R + ρ))
    (hs' : lambda * rowSize w' ≤ p.batchSize * (R + ρ)) (err : List ℝ → DMat ℝ → List ℝ → ℝ → Nat → List ℝ)
    (herr : GradientError d ρ err) (n : Nat) (D D' : Nat → DMat ℝ × List ℝ) (st st' : Nat → List ℝ) (L L' : Nat → ℝ)
    (h : IsRun ⟨logEvaluate lambda, logGradient lambda⟩ id (sgdStep ⟨logEvaluate lambda, logGradient lambda⟩ clipGrad vanillaUpdate) p
      (l.length / p.batchSize) (featuresOf d l) (labelsOf l) w n D st L)
    (h' : IsRun ⟨logEvaluate lambda, logGradient lambda⟩ id
      (withError (sgdStep ⟨logEvaluate lambda, logGradient lambda⟩ clipGrad vanillaUpdate) err) p
      (l.length / p.batchSize) (featuresOf d l) (labelsOf l) w' n D' st' L') :
    gap (st n) (st' n) ≤ (∏ m ∈ Finset.range n, (1 - eta m * (lambda / p.batchSize)) ^ (l.length / p.batchSize)) * gap w w' +
        (l.length / p.batchSize : ℕ) * (∑ m ∈ Finset.range n, eta m) * ρ ∧
      (0 < lambda → gap (st n) (st' n) ≤ max (gap w w') (ρ * p.batchSize / lambda)) := by
  obtain ⟨v, rfl⟩ := exists_ofFn w hw
  obtain ⟨v', rfl⟩ := exists_ofFn w' hw'
  obtain ⟨u, u', e1, e2, e3, e4⟩ := SgdNoise.run_noise hlam hb hρ hl h0 h1 hR herr hp he v v' (small_of hb v hs) (small_of hb v' hs') n
    D D' st st' L L' h h'
  rw [e1, e2, gap_norm, gap_norm]
  refine ⟨e3, fun hpos => e4 _ ?_ (le_max_left _ _)⟩
  have hb' : (0 : ℝ) < p.batchSize := by exact_mod_cast Nat.pos_of_ne_zero hb
  calc ρ = lambda / p.batchSize * (ρ * p.batchSize / lambda) := by field_simp
    _ ≤ _ := mul_le_mul_of_nonneg_left (le_max_right _ _) (by positivity)

namespace SgdNoise

/-- Runs with errors exist for any number of epochs. -/
theorem exists_runs {d : Nat} (lambda : ℝ) (hlam : 0 ≤ lambda) (p : Params ℝ) (he : ∀ i, ∃ lr, p.decay i = .ok lr)
    (l : List (List ℝ × ℝ)) (hl : ∀ s ∈ l, ProperSample d s)
    (hp : ∀ q, p.shuffle = some q → ∀ i, (q i).Perm (List.range l.length)) (w : List ℝ)
    (hw : w.length = d) (err : List ℝ → DMat ℝ → List ℝ → ℝ → Nat → List ℝ) (herr : ∀ s X y lr j, (err s X y lr j).length = d) :
    ∃ D st L, ∀ n, IsRun ⟨logEvaluate lambda, logGradient lambda⟩ id
      (withError (sgdStep ⟨logEvaluate lambda, logGradient lambda⟩ clipGrad vanillaUpdate) err) p (l.length / p.batchSize) (featuresOf d l)
      (labelsOf l) w n D st L := by
  have hu := Liveness.usable_mean _ _ _ lambda hlam (Descent.isMean_log lambda) (fun a => 0 ≤ a ∧ a ≤ 1)
    fun a ha s => Descent.crossEntropy_nonneg a s ha.1 ha.2
  have hn : (featuresOf d l).nrows = l.length := by simp [featuresOf, DMat.nrows]
  have hsgd := Liveness.succeeds_sgd _ _ hu d p.batchSize ((featuresOf d l).nrows / p.batchSize)
  have hs : Liveness.Succeeds ⟨logEvaluate lambda, logGradient lambda⟩ id
      (withError (sgdStep ⟨logEvaluate lambda, logGradient lambda⟩ clipGrad vanillaUpdate) err) (fun w => w.length = d)
      (fun a => 0 ≤ a ∧ a ≤ 1) d p.batchSize ((featuresOf d l).nrows / p.batchSize) := by
    refine ⟨?_, hsgd.2⟩
    intro w X y lr j g1 g2 g3 g4 g5 g6 g7
    obtain ⟨s', q1, q2⟩ := hsgd.1 w X y lr j g1 g2 g3 g4 g5 g6 g7
    refine ⟨_, by unfold withError; rw [q1, Res.bind_ok], ?_⟩
    rw [List.length_zipWith, q2, herr, Nat.min_self]
  obtain ⟨D, st, L, -, h⟩ := Liveness.exists_epochs p (featuresOf d l) hs (featuresOf_wf hl)
    (labelsOf l) (labelsOf_length l) (by
      intro a ha
      obtain ⟨s, hs, rfl⟩ := List.mem_map.mp ha
      exact (hl s hs).2) (by rw [hn]; exact hp) he w hw
  rw [hn] at h
  exact ⟨D, st, L, h⟩

end SgdNoise

/-- Example for `C177_errors`: three samples, batches of two, the constant rate 1 / 4, the penalty 1, all steps too long by 1 / 400; the
weights are never wrong by more than 1 / 50. -/
example : ∃ D D' st st' L L', ∀ n,
    IsRun ⟨logEvaluate 1, logGradient 1⟩ id (sgdStep ⟨logEvaluate 1, logGradient 1⟩ clipGrad vanillaUpdate)
      ⟨50, 2, 3, 0, fun _ => .ok (1 / 4), some fun _ => [2, 1, 0]⟩ (3 / 2) (featuresOf 1 [([1], 0), ([-2], 1), ([1], 1)])
      (labelsOf [([1], 0), ([-2], 1), ([1], 1)]) [0] n D st L ∧
    IsRun ⟨logEvaluate 1, logGradient 1⟩ id (withError (sgdStep ⟨logEvaluate 1, logGradient 1⟩ clipGrad vanillaUpdate)
        fun _ _ _ lr _ => [lr / 100])
      ⟨50, 2, 3, 0, fun _ => .ok (1 / 4), some fun _ => [2, 1, 0]⟩ (3 / 2) (featuresOf 1 [([1], 0), ([-2], 1), ([1], 1)])
      (labelsOf [([1], 0), ([-2], 1), ([1], 1)]) [0] n D' st' L' ∧
    gap (st n) (st' n) ≤ 1 / 50 := by
  let p : Params ℝ := ⟨50, 2, 3, 0, fun _ => .ok (1 / 4), some fun _ => [2, 1, 0]⟩
  have hperm : ∀ q, p.shuffle = some q → ∀ i, (q i).Perm (List.range 3) := by
    intro q hq i
    obtain rfl := Option.some.inj hq
    exact (by decide : [2, 1, 0].Perm (List.range 3))
  have z1 : rowSize [1] = 1 := by simp [rowSize]
  have z2 : rowSize [-2] = 2 := by
    unfold rowSize
    rw [show ([-2].map fun a : ℝ => a ^ 2).sum = 2 ^ 2 by norm_num, Real.sqrt_sq (by norm_num)]
  have z3 : rowSize [0] = 0 := by simp [rowSize]
  have hl : ∀ s ∈ ([([1], 0), ([-2], 1), ([1], 1)] : List (List ℝ × ℝ)), ProperSample 1 s ∧ rowSize s.1 ≤ 2 := by
    intro s hs
    simp only [List.mem_cons, List.not_mem_nil, or_false] at hs
    rcases hs with rfl | rfl | rfl <;> norm_num [ProperSample, z1, z2]
  obtain ⟨D, st, L, h⟩ := SgdStability.exists_runs 1 zero_le_one p (fun _ => ⟨_, rfl⟩) _ (fun s hs => (hl s hs).1) hperm [0] rfl
  obtain ⟨D', st', L', h'⟩ := SgdNoise.exists_runs 1 zero_le_one p (fun _ => ⟨_, rfl⟩) _ (fun s hs => (hl s hs).1) hperm [0] rfl
    (fun _ _ _ lr _ => [lr / 100]) (fun _ _ _ _ _ => rfl)
  refine ⟨D, D', st, st', L, L', fun n => ⟨h n, h' n, ?_⟩⟩
  have h5 := (C177_errors 1 2 (1 / 100) p (fun _ => 1 / 4) zero_le_one (by decide) (fun _ => rfl) (fun _ => by norm_num)
    (fun _ => by norm_num [p]) (by norm_num) (by norm_num) [([1], 0), ([-2], 1), ([1], 1)] hl hperm [0] [0] rfl rfl
    (by rw [z3]; norm_num [p]) (by rw [z3]; norm_num [p]) _ (by
      intro s X y lr j hlr
      refine ⟨rfl, ?_⟩
      simp only [rowSize, List.map_cons, List.map_nil, List.sum_cons, List.sum_nil, add_zero]
      rw [Real.sqrt_sq (by positivity)]
      exact le_of_eq (by ring)) n D D' st st' L L' (h n) (h' n)).2 one_pos
  refine h5.trans (max_le ?_ ?_)
  · norm_num [gap, weightDist]
  · norm_num [p]

end OpenML
