import Verif.Lemmas.SgdStability
import Verif.Props.SolversAgree

/-!
# C172: stability of mini-batch gradient descent for logistic regression
-/

namespace OpenML

open Spec Loss SGD LogStability SgdStability LogisticObject
open scoped BigOperators

namespace SgdStability

theorem changed_eq (l l' : List (List ℝ × ℝ)) : changed l l' = ((l.zip l').map cost).sum := rfl

theorem small_of {d : Nat} {lambda R : ℝ} {b : Nat} (hb : b ≠ 0) (w : Fin d → ℝ) (h : lambda * rowSize (List.ofFn w) ≤ b * R) :
    Small lambda b R (vec w) := by
  have hb' : (0 : ℝ) < b := by exact_mod_cast Nat.pos_of_ne_zero hb
  unfold Small
  rw [norm_vec, div_mul_eq_mul_div, div_le_iff₀ hb']
  linarith

theorem mem_zip {d : Nat} {R : ℝ} {l l' : List (List ℝ × ℝ)} (hl : ∀ s ∈ l, ProperSample d s ∧ rowSize s.1 ≤ R)
    (hl' : ∀ s ∈ l', ProperSample d s ∧ rowSize s.1 ≤ R) :
    ∀ c ∈ l.zip l', (ProperSample d c.1 ∧ rowSize c.1.1 ≤ R) ∧ ProperSample d c.2 ∧ rowSize c.2.1 ≤ R :=
  fun _ hc => ⟨hl _ (List.of_mem_zip hc).1, hl' _ (List.of_mem_zip hc).2⟩

end SgdStability

section
variable {d : Nat} (lambda R : ℝ) (p : Params ℝ) (eta : Nat → ℝ) (hlam : 0 ≤ lambda) (hb : p.batchSize ≠ 0)
  (he : ∀ i, p.decay i = .ok (eta i)) (h0 : ∀ i, 0 ≤ eta i) (h1 : ∀ i, eta i * (R ^ 2 / 4 + lambda / p.batchSize) ≤ 1)
  (hR : 2 * R ≤ 10 ^ 10) (l l' : List (List ℝ × ℝ)) (hlen : l'.length = l.length)
  (hl : ∀ s ∈ l, ProperSample d s ∧ rowSize s.1 ≤ R) (hl' : ∀ s ∈ l', ProperSample d s ∧ rowSize s.1 ≤ R)
  (hp : ∀ q, p.shuffle = some q → ∀ i, (q i).Perm (List.range l.length))
  (w w' : List ℝ) (hw : w.length = d) (hw' : w'.length = d) (hs : lambda * rowSize w ≤ p.batchSize * R)
  (hs' : lambda * rowSize w' ≤ p.batchSize * R)
include hlam hb he h0 h1 hR hlen hl hl' hp hw hw' hs hs'

/-- C172: two runs of mini-batch gradient descent on the penalised log loss, with the same shuffles and learning rates, on training sets of
the same size and from possibly different initial weights. After any number of epochs the weights differ by no more than the initial
weights did, shrunk by the penalty, plus the sum of the learning rates divided by the batch size times the lengths of the samples in which
the training sets differ. In an epoch no weights move further than `2 R` times the rate times the number of batches. -/
theorem C172_runs (n : Nat) (D D' : Nat → DMat ℝ × List ℝ) (st st' : Nat → List ℝ) (L L' : Nat → ℝ)
    (h : IsRun ⟨logEvaluate lambda, logGradient lambda⟩ id (sgdStep ⟨logEvaluate lambda, logGradient lambda⟩ clipGrad vanillaUpdate) p
      (l.length / p.batchSize) (featuresOf d l) (labelsOf l) w n D st L)
    (h' : IsRun ⟨logEvaluate lambda, logGradient lambda⟩ id (sgdStep ⟨logEvaluate lambda, logGradient lambda⟩ clipGrad vanillaUpdate) p
      (l.length / p.batchSize) (featuresOf d l') (labelsOf l') w' n D' st' L') :
    gap (st n) (st' n) ≤ (∏ m ∈ Finset.range n, (1 - eta m * (lambda / p.batchSize)) ^ (l.length / p.batchSize)) * gap w w' +
        (∑ m ∈ Finset.range n, eta m) / p.batchSize * changed l l' ∧
      ∀ m < n, gap (st (m + 1)) (st m) ≤ (l.length / p.batchSize : ℕ) * (eta m * (2 * R)) := by
  obtain ⟨v, rfl⟩ := exists_ofFn w hw
  obtain ⟨v', rfl⟩ := exists_ofFn w' hw'
  have hz : (l.zip l').length = l.length := by rw [List.length_zip, hlen, Nat.min_self]
  have z1 : (l.zip l').map Prod.fst = l := List.map_fst_zip hlen.ge
  have z2 : (l.zip l').map Prod.snd = l' := List.map_snd_zip hlen.le
  obtain ⟨u, u', e1, e2, e3, e4⟩ := run_pair (Z := l.zip l') hlam hb (SgdStability.mem_zip hl hl') h0 h1 hR (by rw [hz]; exact hp) he v v' (small_of hb v hs)
    (small_of hb v' hs') n D D' st st' L L' (by rw [hz, z1]; exact h) (by rw [hz, z2]; exact h') n le_rfl
  rw [hz] at e3 e4
  refine ⟨?_, e4⟩
  rw [e1, e2, gap_norm, gap_norm, changed_eq]
  exact e3

end

namespace SgdStability

/-- Runs exist for any number of epochs. -/
theorem exists_runs {d : Nat} (lambda : ℝ) (hlam : 0 ≤ lambda) (p : Params ℝ) (he : ∀ i, ∃ lr, p.decay i = .ok lr) (l : List (List ℝ × ℝ))
    (hl : ∀ s ∈ l, ProperSample d s) (hp : ∀ q, p.shuffle = some q → ∀ i, (q i).Perm (List.range l.length)) (w : List ℝ)
    (hw : w.length = d) :
    ∃ D st L, ∀ n, IsRun ⟨logEvaluate lambda, logGradient lambda⟩ id
      (sgdStep ⟨logEvaluate lambda, logGradient lambda⟩ clipGrad vanillaUpdate) p (l.length / p.batchSize) (featuresOf d l) (labelsOf l) w n
      D st L := by
  have hu := Liveness.usable_mean _ _ _ lambda hlam (Descent.isMean_log lambda) (fun a => 0 ≤ a ∧ a ≤ 1)
    fun a ha s => Descent.crossEntropy_nonneg a s ha.1 ha.2
  have hn : (featuresOf d l).nrows = l.length := by simp [featuresOf, DMat.nrows]
  obtain ⟨D, st, L, -, h⟩ := Liveness.exists_epochs p (featuresOf d l) (Liveness.succeeds_sgd _ _ hu d p.batchSize _) (featuresOf_wf hl)
    (labelsOf l) (labelsOf_length l) (by
      intro a ha
      obtain ⟨s, hs, rfl⟩ := List.mem_map.mp ha
      exact (hl s hs).2) (by rw [hn]; exact hp) he w hw
  rw [hn] at h
  exact ⟨D, st, L, h⟩

end SgdStability

/-- Example for `C172_runs`: three samples of which the last is replaced, batches of two samples, the order reversed in each epoch, the
constant rate 1 / 4, the penalty 1, initial weights 0 and 1. -/
example : ∃ D D' st st' L L', ∀ n,
    IsRun ⟨logEvaluate 1, logGradient 1⟩ id (sgdStep ⟨logEvaluate 1, logGradient 1⟩ clipGrad vanillaUpdate)
      ⟨50, 2, 3, 0, fun _ => .ok (1 / 4), some fun _ => [2, 1, 0]⟩ (3 / 2) (featuresOf 1 [([1], 0), ([-2], 1), ([1], 1)])
      (labelsOf [([1], 0), ([-2], 1), ([1], 1)]) [0] n D st L ∧
    IsRun ⟨logEvaluate 1, logGradient 1⟩ id (sgdStep ⟨logEvaluate 1, logGradient 1⟩ clipGrad vanillaUpdate)
      ⟨50, 2, 3, 0, fun _ => .ok (1 / 4), some fun _ => [2, 1, 0]⟩ (3 / 2) (featuresOf 1 [([1], 0), ([-2], 1), ([0], 1)])
      (labelsOf [([1], 0), ([-2], 1), ([0], 1)]) [1] n D' st' L' ∧
    gap (st n) (st' n) ≤ (7 / 8) ^ n + n / 8 := by
  let p : Params ℝ := ⟨50, 2, 3, 0, fun _ => .ok (1 / 4), some fun _ => [2, 1, 0]⟩
  have hperm : ∀ q, p.shuffle = some q → ∀ i, (q i).Perm (List.range 3) := by
    intro q hq i
    obtain rfl := Option.some.inj hq
    exact (by decide : [2, 1, 0].Perm (List.range 3))
  have sizes : rowSize [1] = 1 ∧ rowSize [-2] = 2 ∧ rowSize [0] = 0 := by
    refine ⟨?_, ?_, ?_⟩
    · simp [rowSize]
    · unfold rowSize
      rw [show ([-2].map fun a : ℝ => a ^ 2).sum = 2 ^ 2 by norm_num, Real.sqrt_sq (by norm_num)]
    · simp [rowSize]
  obtain ⟨z1, z2, z3⟩ := sizes
  have hl : ∀ s ∈ ([([1], 0), ([-2], 1), ([1], 1)] : List (List ℝ × ℝ)), ProperSample 1 s ∧ rowSize s.1 ≤ 2 := by
    intro s hs
    simp only [List.mem_cons, List.not_mem_nil, or_false] at hs
    rcases hs with rfl | rfl | rfl <;> norm_num [ProperSample, z1, z2]
  have hl' : ∀ s ∈ ([([1], 0), ([-2], 1), ([0], 1)] : List (List ℝ × ℝ)), ProperSample 1 s ∧ rowSize s.1 ≤ 2 := by
    intro s hs
    simp only [List.mem_cons, List.not_mem_nil, or_false] at hs
    rcases hs with rfl | rfl | rfl <;> norm_num [ProperSample, z1, z2, z3]
  obtain ⟨D, st, L, h⟩ := exists_runs 1 zero_le_one p (fun _ => ⟨_, rfl⟩) _ (fun s hs => (hl s hs).1) hperm [0] rfl
  obtain ⟨D', st', L', h'⟩ := exists_runs 1 zero_le_one p (fun _ => ⟨_, rfl⟩) _ (fun s hs => (hl' s hs).1) hperm [1] rfl
  refine ⟨D, D', st, st', L, L', fun n => ⟨h n, h' n, ?_⟩⟩
  have h5 := (C172_runs 1 2 p (fun _ => 1 / 4) zero_le_one (by decide) (fun _ => rfl) (fun _ => by norm_num) (fun _ => by norm_num [p])
    (by norm_num) [([1], 0), ([-2], 1), ([1], 1)] [([1], 0), ([-2], 1), ([0], 1)] rfl hl hl' hperm [0] [1] rfl rfl
    (by rw [z3]; norm_num [p]) (by rw [z1]; norm_num [p]) n D D' st st' L L' (h n)
    (h' n)).1
  have hg : gap [0] [1] = 1 := by norm_num [gap, weightDist]
  have hc : changed [([1], 0), ([-2], 1), ([1], 1)] [([1], 0), ([-2], 1), ([0], 1)] = (1 : ℝ) := by
    norm_num [changed, z1, z3]
  refine h5.trans_eq ?_
  rw [hg, hc, Finset.prod_const, Finset.sum_const, Finset.card_range]
  norm_num [p]
  ring

/-- C172: the learning rates of the solver `sgd` of logistic regression are halved every ten epochs, so that the sum over all epochs stays
below 19 times the first. -/
theorem C172_rates (m : Members) (n : Nat) (hs : m.solver = "sgd") (ha : 0 < m.alpha) (K : Nat) :
    ∑ i ∈ Finset.range K, epochRate m n i < 19 * m.alpha := by
  have key : ∀ K : Nat, (∑ i ∈ Finset.range K, (0.5 : ℝ) ^ ((1 + i) / 10)) + (20 - ((1 + K) % 10 : ℕ)) * (0.5 : ℝ) ^ ((1 + K) / 10) = 19 := by
    intro K
    induction K with
    | zero => norm_num
    | succ K ih =>
      rw [Finset.sum_range_succ]
      by_cases hr : (1 + K) % 10 = 9
      · have e1 : (1 + (K + 1)) % 10 = 0 := by omega
        have e2 : (1 + (K + 1)) / 10 = (1 + K) / 10 + 1 := by omega
        rw [e1, e2, pow_succ]
        rw [hr] at ih
        push_cast at ih ⊢
        linarith
      · have e1 : (1 + (K + 1)) % 10 = (1 + K) % 10 + 1 := by omega
        have e2 : (1 + (K + 1)) / 10 = (1 + K) / 10 := by omega
        rw [e1, e2]
        push_cast
        linarith
  have h1 := key K
  have h2 : ((1 + K) % 10 : ℕ) < (20 : ℝ) := by
    have : (1 + K) % 10 < 20 := by omega
    exact_mod_cast this
  have h3 : 0 < (20 - ((1 + K) % 10 : ℕ)) * (0.5 : ℝ) ^ ((1 + K) / 10) := mul_pos (by linarith) (by positivity)
  unfold epochRate
  rw [if_pos hs, ← Finset.mul_sum, mul_comm 19]
  exact mul_lt_mul_of_pos_left (by linarith) ha

/-- Example for `C172_rates`: the rates of the first twelve epochs. -/
example (m : Members) (hs : m.solver = "sgd") (ha : m.alpha = 1) : ∑ i ∈ Finset.range 12, epochRate m 7 i = 9 + 3 / 2 := by
  norm_num [epochRate, hs, ha, Finset.sum_range_succ]

namespace SgdStability

theorem features_bias (d : Nat) (l : List (List ℝ × ℝ)) : LinearFit.withOnes (featuresOf d l) = featuresOf (d + 1) (l.map withBias) := by
  unfold LinearFit.withOnes featuresOf withBias
  simp

theorem labels_bias (l : List (List ℝ × ℝ)) : labelsOf (l.map withBias) = labelsOf l := by
  unfold labelsOf withBias
  simp

theorem changed_nonneg (l l' : List (List ℝ × ℝ)) : 0 ≤ changed l l' := by
  rw [changed_eq]
  refine List.sum_nonneg fun a ha => ?_
  obtain ⟨c, _, rfl⟩ := List.mem_map.mp ha
  exact cost_nonneg c

theorem gap_triangle (d : Nat) (u v w : Fin d → ℝ) :
    gap (List.ofFn u) (List.ofFn w) ≤ gap (List.ofFn u) (List.ofFn v) + gap (List.ofFn v) (List.ofFn w) := by
  rw [gap_norm, gap_norm, gap_norm]
  exact norm_sub_le_norm_sub_add_norm_sub _ _ _

theorem changed_self (l : List (List ℝ × ℝ)) : changed l l = 0 := by
  rw [changed_eq]
  have : ∀ c ∈ l.zip l, cost c = 0 := by
    intro c hc
    have : c.1 = c.2 := by
      induction l with
      | nil => simp at hc
      | cons a l ih =>
        rw [List.zip_cons_cons, List.mem_cons] at hc
        rcases hc with rfl | hc
        · rfl
        · exact ih hc
    unfold cost
    rw [if_pos this]
  rw [List.map_congr_left this]
  simp

theorem gap_comm (d : Nat) (u v : Fin d → ℝ) : gap (List.ofFn u) (List.ofFn v) = gap (List.ofFn v) (List.ofFn u) := by
  rw [gap_norm, gap_norm, norm_sub_rev]

end SgdStability

namespace SgdStability

theorem changed_comm (l l' : List (List ℝ × ℝ)) : changed l l' = changed l' l := by
  rw [changed_eq, changed_eq, ← List.zip_swap, List.map_map]
  congr 1
  refine List.map_congr_left fun c _ => ?_
  unfold cost
  simp only [Function.comp_apply, Prod.fst_swap, Prod.snd_swap, eq_comm, add_comm]

section
variable {d : Nat} {lambda R : ℝ} {p : Params ℝ} {eta : Nat → ℝ} (hlam : 0 ≤ lambda) (hb : p.batchSize ≠ 0)
  (he : ∀ i, p.decay i = .ok (eta i)) (h0 : ∀ i, 0 ≤ eta i) (h1 : ∀ i, eta i * (R ^ 2 / 4 + lambda / p.batchSize) ≤ 1)
  (hR : 2 * R ≤ 10 ^ 10) {l l' : List (List ℝ × ℝ)} (hlen : l'.length = l.length)
  (hl : ∀ s ∈ l, ProperSample d s ∧ rowSize s.1 ≤ R) (hl' : ∀ s ∈ l', ProperSample d s ∧ rowSize s.1 ≤ R)
  (hp : ∀ q, p.shuffle = some q → ∀ i, (q i).Perm (List.range l.length))
  {w w' : List ℝ} (hw : w.length = d) (hw' : w'.length = d) (hs : lambda * rowSize w ≤ p.batchSize * R)
  (hs' : lambda * rowSize w' ≤ p.batchSize * R)

include hlam hb he h0 h1 hR hl hp hw hs in
/-- How far a run moves in some epochs. -/
theorem drift {n : Nat} {D : Nat → DMat ℝ × List ℝ} {S : Nat → List ℝ} {L : Nat → ℝ}
    (h : IsRun (lf lambda) id (st lambda) p (l.length / p.batchSize) (featuresOf d l) (labelsOf l) w n D S L) :
    ∀ a b, a ≤ b → b ≤ n → (∃ u : Fin d → ℝ, S b = List.ofFn u) ∧
      gap (S a) (S b) ≤ (l.length / p.batchSize : ℕ) * (2 * R) * ∑ m ∈ Finset.Ico a b, eta m := by
  obtain ⟨v, rfl⟩ := exists_ofFn w hw
  have hz : (l.zip l).length = l.length := by rw [List.length_zip, Nat.min_self]
  have z1 : (l.zip l).map Prod.fst = l := List.map_fst_zip le_rfl
  have z2 : (l.zip l).map Prod.snd = l := List.map_snd_zip le_rfl
  have hr := run_pair (Z := l.zip l) hlam hb (mem_zip hl hl) h0 h1 hR (by rw [hz]; exact hp) he v v (small_of hb v hs)
    (small_of hb v hs) n D D S S L L (by rw [hz, z1]; exact h) (by rw [hz, z2]; exact h)
  rw [hz] at hr
  intro a b hab
  induction b, hab using Nat.le_induction with
  | base =>
    intro hn
    obtain ⟨u, u', e1, e2, e3, e4⟩ := hr a hn
    refine ⟨⟨u, e1⟩, ?_⟩
    rw [e1, gap_norm]
    simp
  | succ b hab ih =>
    intro hn
    obtain ⟨⟨u, hu⟩, h2⟩ := ih (by omega)
    obtain ⟨v1, -, e1, -, -, e4⟩ := hr (b + 1) hn
    obtain ⟨v0, -, e0, -, -, -⟩ := hr a (by omega)
    refine ⟨⟨v1, e1⟩, ?_⟩
    have h5 := e4 b (by omega)
    rw [e1, hu] at h5
    rw [e0, hu] at h2
    rw [e0, e1, Finset.sum_Ico_succ_top hab, mul_add]
    refine (gap_triangle d v0 u v1).trans (add_le_add h2 ?_)
    rw [gap_comm]
    linarith

include hlam hb he h0 h1 hR hlen hl hl' hp hw hw' hs hs' in
/-- Two runs of possibly different length. -/
theorem two_runs {a b : Nat} (hab : a ≤ b) {D D' : Nat → DMat ℝ × List ℝ} {S S' : Nat → List ℝ} {L L' : Nat → ℝ}
    (h : IsRun (lf lambda) id (st lambda) p (l.length / p.batchSize) (featuresOf d l) (labelsOf l) w a D S L)
    (h' : IsRun (lf lambda) id (st lambda) p (l.length / p.batchSize) (featuresOf d l') (labelsOf l') w' b D' S' L') :
    gap (S a) (S' b) ≤ gap w w' + (∑ m ∈ Finset.range a, eta m) / p.batchSize * changed l l' +
      (l.length / p.batchSize : ℕ) * (2 * R) * ∑ m ∈ Finset.Ico a b, eta m := by
  have hA := (C172_runs lambda R p eta hlam hb he h0 h1 hR l l' hlen hl hl' hp w w' hw hw' hs hs' a D D' S S' L L' h
    (isRun_mono _ _ _ p _ _ _ _ hab h')).1
  have hB := drift hlam hb he h0 h1 hR hl' (by rw [hlen]; exact hp) hw' hs' (by rw [hlen]; exact h') a b hab le_rfl
  have hC := drift hlam hb he h0 h1 hR hl' (by rw [hlen]; exact hp) hw' hs' (by rw [hlen]; exact h') a a le_rfl hab
  have hE := drift hlam hb he h0 h1 hR hl hp hw hs h a a le_rfl le_rfl
  rw [hlen] at hB
  obtain ⟨⟨u1, e1⟩, g1⟩ := hB
  obtain ⟨⟨u2, e2⟩, -⟩ := hC
  obtain ⟨⟨u3, e3⟩, -⟩ := hE
  have h5 : (∏ m ∈ Finset.range a, (1 - eta m * (lambda / p.batchSize)) ^ (l.length / p.batchSize)) * gap w w' ≤ gap w w' := by
    refine mul_le_of_le_one_left (Real.sqrt_nonneg _) (Finset.prod_le_one (fun m _ => ?_) fun m _ => ?_)
    · refine pow_nonneg ?_ _
      nlinarith [h1 m, mul_nonneg (h0 m) (sq_nonneg R)]
    · refine pow_le_one₀ ?_ ?_
      · nlinarith [h1 m, mul_nonneg (h0 m) (sq_nonneg R)]
      · have : 0 ≤ eta m * (lambda / p.batchSize) := mul_nonneg (h0 m) (by positivity)
        linarith
  rw [e3, e2] at hA
  rw [e2, e1] at g1
  rw [e3, e1]
  have := gap_triangle d u3 u2 u1
  linarith

end

end SgdStability

/-- C172: logistic regression with solver `sgd`, trained twice, on training sets of the same size, from possibly different initial weights,
with the same settings and shuffles: unless the runs end after different numbers of epochs, the published weights differ by no more than
the initial weights did, plus 19 times the learning rate divided by the batch size times the lengths of the samples in which the training
sets differ. Each further epoch of the longer run adds at most `2 R` times its learning rate times the number of batches. -/
theorem C172_fit {d : Nat} (m : Members) (hsol : m.solver = "sgd") (hpen : m.penalty = "l2" ∨ m.penalty = "None") (hlam : 0 ≤ m.lambda)
    (hb : m.batchSize ≠ 0) (ha : 0 < m.alpha) (perms : Nat → List Nat) (junk junk' : Nat → ℝ) (fuel fuel' : Nat) (R : ℝ)
    (l l' : List (List ℝ × ℝ)) (hlen : l'.length = l.length) (hl : ∀ s ∈ l, ProperSample d s ∧ rowSize (s.1 ++ [1]) ≤ R)
    (hl' : ∀ s ∈ l', ProperSample d s ∧ rowSize (s.1 ++ [1]) ≤ R)
    (hp : m.shuffle = true → ∀ i, (perms i).Perm (List.range l.length))
    (hrate : m.alpha * (R ^ 2 / 4 + m.lambda / m.batchSize) ≤ 1) (hR : 2 * R ≤ 10 ^ 10)
    (w w' : List ℝ) (hw : w.length = d + 1) (hw' : w'.length = d + 1) (hs : m.lambda * rowSize w ≤ m.batchSize * R)
    (hs' : m.lambda * rowSize w' ≤ m.batchSize * R) (v v' : List ℝ)
    (h : fit m perms junk fuel (featuresOf d l) (labelsOf l) w = .ok v)
    (h' : fit m perms junk' fuel' (featuresOf d l') (labelsOf l') w' = .ok v') :
    ∃ K K', m.noChange < K ∧ K ≤ m.maxIter ∧ m.noChange < K' ∧ K' ≤ m.maxIter ∧
      gap v v' ≤ gap w w' + 19 * m.alpha / m.batchSize * changed (l.map withBias) (l'.map withBias) +
        (l.length / m.batchSize : ℕ) * (2 * R) * ∑ i ∈ Finset.Ico (min K K') (max K K'), epochRate m l.length i := by
  have hb' : (0 : ℝ) < m.batchSize := by exact_mod_cast Nat.pos_of_ne_zero hb
  have hpos : ∀ i, 0 ≤ epochRate m l.length i := by
    intro i
    unfold epochRate
    rw [if_pos hsol]
    positivity
  have hle : ∀ i, epochRate m l.length i ≤ m.alpha := by
    intro i
    unfold epochRate
    rw [if_pos hsol]
    exact mul_le_of_le_one_right ha.le (pow_le_one₀ (by norm_num) (by norm_num))
  have hdec : ∀ i, (sgdParams m perms).decay i = .ok (epochRate m l.length i) := by
    intro i
    simp only [sgdParams, SGD.stepDecay, epochRate, hsol]
    norm_num
  have hr : ∀ i, epochRate m l.length i * (R ^ 2 / 4 + m.lambda / (sgdParams m perms).batchSize) ≤ 1 := fun i =>
    (mul_le_mul_of_nonneg_right (hle i) (add_nonneg (by positivity) (div_nonneg hlam hb'.le))).trans hrate
  have hperm : ∀ q, (sgdParams m perms).shuffle = some q → ∀ i, (q i).Perm (List.range l.length) := by
    intro q hq i
    simp only [sgdParams] at hq
    split at hq
    · rename_i hsh
      obtain rfl := Option.some.inj hq
      exact hp hsh i
    · cases hq
  have hmem : ∀ {l : List (List ℝ × ℝ)}, (∀ s ∈ l, ProperSample d s ∧ rowSize (s.1 ++ [1]) ≤ R) →
      ∀ s ∈ l.map withBias, ProperSample (d + 1) s ∧ rowSize s.1 ≤ R := by
    intro l hl s hs
    obtain ⟨q, hq, rfl⟩ := List.mem_map.mp hs
    obtain ⟨⟨h1, h2⟩, h3⟩ := hl q hq
    exact ⟨⟨by simp [withBias, h1], h2⟩, h3⟩
  have hex : ∀ (junk : Nat → ℝ) (fuel : Nat) (l : List (List ℝ × ℝ)) (w v : List ℝ),
      fit m perms junk fuel (featuresOf d l) (labelsOf l) w = .ok v → ∃ i, m.noChange < i + 1 ∧ i + 1 ≤ m.maxIter ∧ ∃ D S L,
        IsRun (lf m.lambda) id (SgdStability.st m.lambda) (sgdParams m perms) ((l.map withBias).length / (sgdParams m perms).batchSize)
          (featuresOf (d + 1) (l.map withBias)) (labelsOf (l.map withBias)) w (i + 1) D S L ∧ v = S (i + 1) := by
    intro junk fuel l w v h
    unfold fit at h
    rw [hsol] at h
    have h2 := fitLogistic_sgd m.lambda m.l1Ratio m.penalty hpen (sgdParams m perms) _ _ _ w v h
    obtain ⟨i, hi, D, S, L, hrun, hst, hv⟩ := (C47_publishes_iff _ id _ (sgdParams m perms) hb _ _ w v).mp h2
    have h3 : (sgdParams m perms).noChange ≤ i := by
      by_contra hc
      obtain ⟨j, hj, _⟩ := hst.1 0 (Nat.zero_le _) (by omega)
      omega
    refine ⟨i, Nat.lt_succ_of_le h3, hi, D, S, L, ?_, hv⟩
    rw [features_bias] at hrun
    rw [labels_bias]
    have hnr : (featuresOf (d + 1) (l.map withBias)).nrows = (l.map withBias).length := by simp [featuresOf, DMat.nrows]
    rw [hnr] at hrun
    exact hrun
  obtain ⟨i, hi1, hi2, D, S, L, hrun, rfl⟩ := hex junk fuel l w v h
  obtain ⟨j, hj1, hj2, D', S', L', hrun', rfl⟩ := hex junk' fuel' l' w' v' h'
  refine ⟨i + 1, j + 1, hi1, hi2, hj1, hj2, ?_⟩
  have hlb : (l.map withBias).length = l.length := List.length_map _
  have hlb' : (l'.map withBias).length = l.length := by rw [List.length_map, hlen]
  rw [hlb] at hrun
  rw [hlb'] at hrun'
  have hsum : ∀ K, (∑ q ∈ Finset.range K, epochRate m l.length q) / m.batchSize * changed (l.map withBias) (l'.map withBias) ≤
      19 * m.alpha / m.batchSize * changed (l.map withBias) (l'.map withBias) := fun K =>
    mul_le_mul_of_nonneg_right (div_le_div_of_nonneg_right (C172_rates m l.length hsol ha K).le hb'.le) (changed_nonneg _ _)
  rcases le_total (i + 1) (j + 1) with hij | hij
  · have h5 := two_runs hlam hb hdec hpos hr hR (l := l.map withBias) (l' := l'.map withBias) (hlb'.trans hlb.symm) (hmem hl) (hmem hl')
      (by rw [hlb]; exact hperm) hw hw' hs hs' hij (by rw [hlb]; exact hrun) (by rw [hlb]; exact hrun')
    rw [hlb] at h5
    rw [min_eq_left hij, max_eq_right hij]
    exact h5.trans (by have := hsum (i + 1); dsimp only [sgdParams] at this ⊢; linarith)
  · have h5 := two_runs hlam hb hdec hpos hr hR (l := l'.map withBias) (l' := l.map withBias) (hlb.trans hlb'.symm) (hmem hl') (hmem hl)
      (by rw [hlb']; exact hperm) hw' hw hs' hs hij (by rw [hlb']; exact hrun') (by rw [hlb']; exact hrun)
    rw [hlb'] at h5
    rw [min_eq_right hij, max_eq_left hij]
    have hgc : ∀ a b : List ℝ, a.length = d + 1 → b.length = d + 1 → gap a b = gap b a := by
      intro a b h1 h2
      obtain ⟨a, rfl⟩ := exists_ofFn a h1
      obtain ⟨b, rfl⟩ := exists_ofFn b h2
      exact SgdStability.gap_comm _ a b
    have g1 := drift hlam hb hdec hpos hr hR (hmem hl) (by rw [hlb]; exact hperm) hw hs (by rw [hlb]; exact hrun) _ _ le_rfl le_rfl
    have g2 := drift hlam hb hdec hpos hr hR (hmem hl') (by rw [hlb']; exact hperm) hw' hs' (by rw [hlb']; exact hrun') _ _ le_rfl le_rfl
    obtain ⟨⟨u1, e1⟩, -⟩ := g1
    obtain ⟨⟨u2, e2⟩, -⟩ := g2
    rw [hgc w' w hw' hw, changed_comm, e1, e2, SgdStability.gap_comm] at h5
    rw [e1, e2]
    exact h5.trans (by have := hsum (j + 1); dsimp only [sgdParams] at this ⊢; linarith)

/-- Example for `C172_fit`: two samples, the label of the first of which is changed; learning rate 1 / 2, penalty 1, all samples in one
batch. For every large enough `max_iter` both trainings succeed. -/
example : ∃ (m : Members) (v v' : List ℝ), m.solver = "sgd" ∧ m.penalty = "l2" ∧ m.lambda = 1 ∧ m.batchSize = 2 ∧ m.alpha = 1 / 2 ∧
    m.shuffle = true ∧ (∀ i : Nat, ((fun _ => [1, 0]) i : List Nat).Perm (List.range 2)) ∧
    (∀ s ∈ ([([1], 1), ([0], 0)] : List (List ℝ × ℝ)), ProperSample 1 s ∧ rowSize (s.1 ++ [1]) ≤ 2) ∧
    (∀ s ∈ ([([1], 0), ([0], 0)] : List (List ℝ × ℝ)), ProperSample 1 s ∧ rowSize (s.1 ++ [1]) ≤ 2) ∧
    m.alpha * (2 ^ 2 / 4 + m.lambda / m.batchSize) ≤ 1 ∧ m.lambda * rowSize [0, 0] ≤ m.batchSize * 2 ∧
    fit m (fun _ => [1, 0]) (fun _ => 0) 0 (featuresOf 1 [([1], 1), ([0], 0)]) (labelsOf [([1], 1), ([0], 0)]) [0, 0] = .ok v ∧
    fit m (fun _ => [1, 0]) (fun _ => 0) 0 (featuresOf 1 [([1], 0), ([0], 0)]) (labelsOf [([1], 0), ([0], 0)]) [0, 0] = .ok v' := by
  let m : Nat → Members := fun n =>
    ⟨true, false, 1 / 2, 1, 1 / 10, 0, 0, 0, 0, 5, 0, 2, n, 0, 0, "sgd", "l2", "", ""⟩
  have sizes : rowSize [1, 1] ≤ 2 ∧ rowSize [0, 1] ≤ 2 ∧ rowSize [0, 0] = 0 := by
    refine ⟨?_, ?_, ?_⟩
    · unfold rowSize
      rw [Real.sqrt_le_left (by norm_num)]
      norm_num
    · simp [rowSize]
    · simp [rowSize]
  obtain ⟨z1, z2, z3⟩ := sizes
  have hl : ∀ s ∈ ([([1], 1), ([0], 0)] : List (List ℝ × ℝ)), ProperSample 1 s ∧ rowSize (s.1 ++ [1]) ≤ 2 := by
    intro s hs
    simp only [List.mem_cons, List.not_mem_nil, or_false] at hs
    rcases hs with rfl | rfl <;> norm_num [ProperSample, z1, z2]
  have hl' : ∀ s ∈ ([([1], 0), ([0], 0)] : List (List ℝ × ℝ)), ProperSample 1 s ∧ rowSize (s.1 ++ [1]) ≤ 2 := by
    intro s hs
    simp only [List.mem_cons, List.not_mem_nil, or_false] at hs
    rcases hs with rfl | rfl <;> norm_num [ProperSample, z1, z2]
  have hex : ∀ l : List (List ℝ × ℝ), l.length = 2 → (∀ s ∈ l, ProperSample 1 s ∧ rowSize (s.1 ++ [1]) ≤ 2) →
      ∃ M v, ∀ n, M < n → fit (m n) (fun _ => [1, 0]) (fun _ => 0) 0 (featuresOf 1 l) (labelsOf l) [0, 0] = .ok v := by
    intro l h2 hl
    obtain ⟨M, v, hv⟩ := C126_logistic 1 0 "l2" "sgd" (Or.inl rfl) (Or.inl rfl) (by norm_num) (sgdParams (m 0) fun _ => [1, 0])
      (fun loss X y w => do
        let r ← LBFGS.optimize Real.sqrt (lbfgsParams (m 0)) (fun _ => 0) 0 loss X y w
        .ok (r.getD [])) (by norm_num [sgdParams, m]) (by norm_num [sgdParams, m]) (featuresOf 1 l)
      (featuresOf_wf fun s hs => (hl s hs).1) (labelsOf l) (labelsOf_length l)
      (by
        intro a ha
        obtain ⟨s, hs, rfl⟩ := List.mem_map.mp ha
        exact (hl s hs).1.2)
      (by
        intro q hq i
        obtain rfl := Option.some.inj hq
        rw [show (featuresOf 1 l).nrows = 2 by simp [featuresOf, DMat.nrows, h2]]
        exact (by decide : [1, 0].Perm (List.range 2))) (fun i => ⟨_, show SGD.stepDecay _ _ 10 i = _ from if_neg (by decide)⟩) [0, 0] rfl
    refine ⟨M, v, fun n hn => ?_⟩
    have h := hv n
    rw [if_pos hn] at h
    exact h
  obtain ⟨M, v, hv⟩ := hex _ rfl hl
  obtain ⟨M', v', hv'⟩ := hex _ rfl hl'
  refine ⟨m (max M M' + 1), v, v', rfl, rfl, rfl, rfl, rfl, rfl, fun _ => (by decide : [1, 0].Perm (List.range 2)), hl, hl', by norm_num [m], by norm_num [m, z3],
    hv _ (Nat.lt_succ_of_le (le_max_left _ _)), hv' _ (Nat.lt_succ_of_le (le_max_right _ _))⟩

namespace SgdStability

/-- If exchanging one drawn sample changes no loss by more than `ε`, then losses on drawn samples are on average those on all samples up to
`ε`. -/
theorem generalises {N n : Nat} (hN : 0 < N) (hn : 0 < n) (c : Fin N → (Fin n → Fin N) → ℝ) (ε : ℝ)
    (h : ∀ z i k, |c (z i) (Function.update z i k) - c (z i) z| ≤ ε) :
    |overDraws (fun z => (∑ k, c k z) / N) - overDraws (fun z => (∑ i, c (z i) z) / n)| ≤ ε := by
  have hN' : (0 : ℝ) < N := by exact_mod_cast hN
  have hn' : (0 : ℝ) < n := by exact_mod_cast hn
  have hNn : (0 : ℝ) < (N : ℝ) ^ n := pow_pos hN' n
  have hcard : ((Fintype.card (Fin n → Fin N) : ℕ) : ℝ) = (N : ℝ) ^ n := by
    rw [Fintype.card_fun, Fintype.card_fin, Fintype.card_fin]
    push_cast
    rfl
  have h1 : ∀ i : Fin n, |∑ z, ∑ k, c k z - N * ∑ z, c (z i) z| ≤ (N : ℝ) ^ n * (N * ε) := by
    intro i
    have e : ∑ z, ∑ k, c k z - N * ∑ z, c (z i) z = ∑ z : Fin n → Fin N, ∑ k : Fin N, (c (z i) (Function.update z i k) - c (z i) z) := by
      rw [sum_exchange i]
      simp only [Finset.sum_sub_distrib, Finset.sum_const, Finset.card_univ, Fintype.card_fin, nsmul_eq_mul, Finset.mul_sum]
    rw [e]
    refine (Finset.abs_sum_le_sum_abs _ _).trans ?_
    refine (Finset.sum_le_card_nsmul _ _ (N * ε) fun z _ => ?_).trans_eq (by rw [Finset.card_univ, nsmul_eq_mul, hcard])
    refine (Finset.abs_sum_le_sum_abs _ _).trans ?_
    refine (Finset.sum_le_card_nsmul _ _ ε fun k _ => h z i k).trans_eq (by rw [Finset.card_univ, nsmul_eq_mul, Fintype.card_fin])
  have h2 : |n * ∑ z, ∑ k, c k z - N * ∑ z, ∑ i, c (z i) z| ≤ n * ((N : ℝ) ^ n * (N * ε)) := by
    have e : n * ∑ z, ∑ k, c k z - N * ∑ z, ∑ i, c (z i) z = ∑ i : Fin n, (∑ z, ∑ k, c k z - N * ∑ z, c (z i) z) := by
      rw [Finset.sum_sub_distrib, Finset.sum_const, Finset.card_univ, Fintype.card_fin, nsmul_eq_mul, ← Finset.mul_sum]
      congr 2
      exact Finset.sum_comm
    rw [e]
    refine (Finset.abs_sum_le_sum_abs _ _).trans ?_
    exact (Finset.sum_le_card_nsmul _ _ _ fun i _ => h1 i).trans_eq (by rw [Finset.card_univ, nsmul_eq_mul, Fintype.card_fin])
  unfold overDraws
  rw [← Finset.sum_div, ← Finset.sum_div]
  have e : (∑ z, ∑ k, c k z) / N / (N : ℝ) ^ n - (∑ z : Fin n → Fin N, ∑ i, c (z i) z) / n / (N : ℝ) ^ n =
      (n * ∑ z, ∑ k, c k z - N * ∑ z, ∑ i, c (z i) z) / (n * ((N : ℝ) ^ n * N)) := by
    field_simp
  have hp : 0 < n * ((N : ℝ) ^ n * N) := by positivity
  rw [e, abs_div, abs_of_pos hp, div_le_iff₀ hp]
  linarith

theorem changed_update {N n : Nat} (pop : Fin N → List ℝ × ℝ) (R : ℝ) (hpop : ∀ k, rowSize (pop k).1 ≤ R)
    (z : Fin n → Fin N) (i : Fin n) (k : Fin N) : changed (drawn pop (Function.update z i k)) (drawn pop z) ≤ 2 * R := by
  have e : (drawn pop (Function.update z i k)).zip (drawn pop z) = List.ofFn fun j => (pop (Function.update z i k j), pop (z j)) := by
    apply List.ext_getElem
    · simp [drawn]
    · intro q h1 h2
      simp [drawn]
  rw [changed_eq, e, List.map_ofFn, List.sum_ofFn, ← Finset.add_sum_erase _ _ (Finset.mem_univ i)]
  have h0 : ∑ j ∈ Finset.univ.erase i, (cost ∘ fun j => (pop (Function.update z i k j), pop (z j))) j = 0 := by
    refine Finset.sum_eq_zero fun j hj => ?_
    simp only [Function.comp_apply]
    unfold cost
    rw [Function.update_of_ne (Finset.ne_of_mem_erase hj), if_pos rfl]
  rw [h0, add_zero]
  simp only [Function.comp_apply]
  unfold cost
  split
  · have := (Real.sqrt_nonneg _).trans (hpop k)
    linarith
  · have h1 := (hpop (Function.update z i k i))
    have h2 := (hpop (z i))
    dsimp only
    linarith

end SgdStability

/-- C172: train with mini-batch gradient descent for any number of epochs on `n` samples drawn with replacement from `N` samples of length
at most `R`. On average over all draws the mean loss on all samples and that on the drawn samples differ by at most `2 R²` times the sum of
the learning rates divided by the batch size; no penalty is needed. -/
theorem C172_generalisation {d N n : Nat} (hN : 0 < N) (hn : 0 < n) (lambda R : ℝ) (p : Params ℝ) (eta : Nat → ℝ) (hlam : 0 ≤ lambda)
    (hb : p.batchSize ≠ 0) (he : ∀ i, p.decay i = .ok (eta i)) (h0 : ∀ i, 0 ≤ eta i)
    (h1 : ∀ i, eta i * (R ^ 2 / 4 + lambda / p.batchSize) ≤ 1) (hR : 2 * R ≤ 10 ^ 10) (pop : Fin N → List ℝ × ℝ)
    (hpop : ∀ k, ProperSample d (pop k) ∧ rowSize (pop k).1 ≤ R)
    (hp : ∀ q, p.shuffle = some q → ∀ i, (q i).Perm (List.range n)) (w : List ℝ) (hw : w.length = d)
    (hs : lambda * rowSize w ≤ p.batchSize * R) (K : Nat) (D : (Fin n → Fin N) → Nat → DMat ℝ × List ℝ)
    (st : (Fin n → Fin N) → Nat → List ℝ) (L : (Fin n → Fin N) → Nat → ℝ)
    (h : ∀ z, IsRun ⟨logEvaluate lambda, logGradient lambda⟩ id (sgdStep ⟨logEvaluate lambda, logGradient lambda⟩ clipGrad vanillaUpdate) p
      (n / p.batchSize) (featuresOf d (drawn pop z)) (labelsOf (drawn pop z)) w K (D z) (st z) (L z))
    (train test : (Fin n → Fin N) → ℝ)
    (htrain : ∀ z, logEvaluate 0 (featuresOf d (drawn pop z)) (labelsOf (drawn pop z)) (st z K) = .ok (train z))
    (htest : ∀ z, logEvaluate 0 (featuresOf d (List.ofFn pop)) (labelsOf (List.ofFn pop)) (st z K) = .ok (test z)) :
    |overDraws test - overDraws train| ≤ 2 * R ^ 2 * (∑ m ∈ Finset.range K, eta m) / p.batchSize := by
  have hb' : (0 : ℝ) < p.batchSize := by exact_mod_cast Nat.pos_of_ne_zero hb
  have hdr : ∀ z : Fin n → Fin N, ∀ q ∈ drawn pop z, ProperSample d q ∧ rowSize q.1 ≤ R := by
    intro z p hp
    obtain ⟨i, rfl⟩ := (List.mem_ofFn' _ _).mp hp
    exact hpop _
  have hall : ∀ p ∈ List.ofFn pop, ProperSample d p := by
    intro p hp
    obtain ⟨i, rfl⟩ := (List.mem_ofFn' _ _).mp hp
    exact (hpop _).1
  have hlen : ∀ z : Fin n → Fin N, (drawn pop z).length = n := fun z => by simp [drawn]
  have hst : ∀ z, ∃ W : Fin d → ℝ, st z K = List.ofFn W := fun z =>
    (drift hlam hb he h0 h1 hR (hdr z) (by rw [hlen]; exact hp) hw hs (by rw [hlen]; exact h z) K K le_rfl le_rfl).1
  choose W hW using hst
  have htr : train = fun z => (∑ i, lossAt pop (W z) (z i)) / n := by
    funext z
    have h1 := htrain z
    rw [hW z, evaluate_ok 0 _ fun q hq => (hdr z q hq).1] at h1
    rw [← Res.ok.inj h1, meanLoss_drawn]
    ring
  have hte : test = fun z => (∑ k, lossAt pop (W z) k) / N := by
    funext z
    have h1 := htest z
    rw [hW z, evaluate_ok 0 _ hall] at h1
    rw [← Res.ok.inj h1, meanLoss_pop]
    ring
  rw [htr, hte]
  refine generalises hN hn (fun k z => lossAt pop (W z) k) _ fun z i k => ?_
  have hR0 : 0 ≤ R := (Real.sqrt_nonneg _).trans (hpop k).2
  have hsum : 0 ≤ (∑ m ∈ Finset.range K, eta m) / p.batchSize := div_nonneg (Finset.sum_nonneg fun m _ => h0 m) hb'.le
  have hg : gap (List.ofFn (W (Function.update z i k))) (List.ofFn (W z)) ≤ (∑ m ∈ Finset.range K, eta m) / p.batchSize * (2 * R) := by
    have h5 := (C172_runs lambda R p eta hlam hb he h0 h1 hR (drawn pop (Function.update z i k)) (drawn pop z) (by rw [hlen, hlen]) (hdr _)
      (hdr z) (by rw [hlen]; exact hp) w w hw hw hs hs K _ _ _ _ _ _ (by rw [hlen]; exact h _) (by rw [hlen]; exact h z)).1
    have h6 : gap w w = 0 := by
      obtain ⟨v, rfl⟩ := exists_ofFn w hw
      rw [gap_norm, sub_self, norm_zero]
    rw [h6, mul_zero, zero_add, hW, hW] at h5
    exact h5.trans (mul_le_mul_of_nonneg_left (changed_update pop R (fun k => (hpop k).2) z i k) hsum)
  have h2 := score_gap (pop (z i)).1 (hpop (z i)).1.1 (W (Function.update z i k)) (W z)
  have h3 : rowSize (pop (z i)).1 * gap (List.ofFn (W (Function.update z i k))) (List.ofFn (W z)) ≤
      R * ((∑ m ∈ Finset.range K, eta m) / p.batchSize * (2 * R)) :=
    mul_le_mul (hpop (z i)).2 hg (Real.sqrt_nonneg _) hR0
  have e : R * ((∑ m ∈ Finset.range K, eta m) / p.batchSize * (2 * R)) = 2 * R ^ 2 * (∑ m ∈ Finset.range K, eta m) / p.batchSize := by ring
  have h4 := crossEntropy_gap (pop (z i)).2 (score (pop (z i)).1 (W (Function.update z i k))) (score (pop (z i)).1 (W z))
    (hpop (z i)).1.2.1 (hpop (z i)).1.2.2
  have h5 := crossEntropy_gap (pop (z i)).2 (score (pop (z i)).1 (W z)) (score (pop (z i)).1 (W (Function.update z i k)))
    (hpop (z i)).1.2.1 (hpop (z i)).1.2.2
  rw [abs_sub_comm] at h5
  unfold lossAt
  rw [abs_le]
  constructor <;> linarith

/-- Example for `C172_generalisation`: three samples are drawn with replacement from two; no penalty, batches of one sample, the rate 1,
ten epochs. The bound is 20. -/
example : ∃ (D : (Fin 3 → Fin 2) → Nat → DMat ℝ × List ℝ) (st : (Fin 3 → Fin 2) → Nat → List ℝ) (L : (Fin 3 → Fin 2) → Nat → ℝ)
    (train test : (Fin 3 → Fin 2) → ℝ), (∀ z,
      IsRun ⟨logEvaluate 0, logGradient 0⟩ id (sgdStep ⟨logEvaluate 0, logGradient 0⟩ clipGrad vanillaUpdate)
        ⟨50, 1, 3, 0, fun _ => .ok 1, none⟩ (3 / 1) (featuresOf 1 (drawn ![([1], 0), ([-1], 1)] z))
        (labelsOf (drawn ![([1], 0), ([-1], 1)] z)) [0] 10 (D z) (st z) (L z)) ∧
      (∀ z, logEvaluate 0 (featuresOf 1 (drawn ![([1], 0), ([-1], 1)] z)) (labelsOf (drawn ![([1], 0), ([-1], 1)] z)) (st z 10) =
        .ok (train z)) ∧
      (∀ z, logEvaluate 0 (featuresOf 1 (List.ofFn ![([1], 0), ([-1], 1)])) (labelsOf (List.ofFn ![([1], 0), ([-1], 1)])) (st z 10) =
        .ok (test z)) ∧
      |overDraws test - overDraws train| ≤ 20 := by
  let p : Params ℝ := ⟨50, 1, 3, 0, fun _ => .ok 1, none⟩
  let pop : Fin 2 → List ℝ × ℝ := ![([1], 0), ([-1], 1)]
  have hpop : ∀ k, ProperSample 1 (pop k) ∧ rowSize (pop k).1 ≤ 1 := by
    intro k
    fin_cases k <;> norm_num [pop, ProperSample, rowSize]
  have hdr : ∀ z : Fin 3 → Fin 2, ∀ s ∈ drawn pop z, ProperSample 1 s ∧ rowSize s.1 ≤ 1 := by
    intro z s hs
    obtain ⟨i, rfl⟩ := (List.mem_ofFn' _ _).mp hs
    exact hpop _
  have hall : ∀ s ∈ List.ofFn pop, ProperSample 1 s := by
    intro s hs
    obtain ⟨i, rfl⟩ := (List.mem_ofFn' _ _).mp hs
    exact (hpop _).1
  have hsh : ∀ (n : Nat) q, p.shuffle = some q → ∀ i, (q i).Perm (List.range n) := by
    intro n q hq
    cases hq
  have hrun := fun z => exists_runs 0 le_rfl p (fun _ => ⟨_, rfl⟩) (drawn pop z) (fun s hs => (hdr z s hs).1) (hsh _) [0] rfl
  choose D st L h using hrun
  have hW : ∀ z, ∃ W : Fin 1 → ℝ, st z 10 = List.ofFn W := fun z =>
    (drift le_rfl (by decide : p.batchSize ≠ 0) (fun _ => rfl) (fun _ => zero_le_one) (fun _ => by norm_num [p]) (by norm_num)
      (hdr z) (hsh _) rfl (by norm_num [p]) (h z 10) 10 10 le_rfl le_rfl).1
  choose W hW using hW
  have htr := fun z => evaluate_ok 0 (drawn pop z) (fun s hs => (hdr z s hs).1) (W z)
  have hte := fun z => evaluate_ok 0 (List.ofFn pop) hall (W z)
  simp only [← hW] at htr hte
  refine ⟨D, st, L, _, _, fun z => ?_, htr, hte, ?_⟩
  · have := h z 10
    rwa [show (drawn pop z).length = 3 by simp [drawn]] at this
  · refine (C172_generalisation (by decide) (by decide) 0 1 p (fun _ => 1) le_rfl (by decide) (fun _ => rfl) (fun _ => zero_le_one)
      (fun _ => by norm_num [p]) (by norm_num) pop hpop (hsh _) [0] rfl (by norm_num [p]) 10 D st L (fun z => ?_) _ _ htr hte).trans_eq ?_
    · have := h z 10
      rwa [show (drawn pop z).length = 3 by simp [drawn]] at this
    · norm_num [p]

end OpenML
