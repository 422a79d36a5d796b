import Verif.Spec.SolversAgree
import Verif.Props.LogStability
import Verif.Props.LBFGSLosses
import Verif.Props.Symmetry
import Verif.Props.Liveness

/-!
# C170: the solvers of logistic regression agree
-/

namespace OpenML

open Spec Loss LogStability LinearFit LogisticObject

namespace SolversAgree

theorem gap_triangle (u v w : List ℝ) (d : Nat) (hu : u.length = d) (hv : v.length = d) (hw : w.length = d) :
    gap u w ≤ gap u v + gap w v := by
  obtain ⟨u, rfl⟩ := exists_ofFn u hu
  obtain ⟨v, rfl⟩ := exists_ofFn v hv
  obtain ⟨w, rfl⟩ := exists_ofFn w hw
  rw [gap_norm, gap_norm, gap_norm, norm_sub_rev (vec w)]
  exact norm_sub_le_norm_sub_add_norm_sub _ _ _

/-- Distance from the minimum. -/
theorem gap_minimum (lambda : ℝ) (hl : 0 < lambda) (X : DMat ℝ) (hX : X.WF) (hn : X.nrows ≠ 0) (y : List ℝ) (hy : y.length = X.nrows)
    (v g : List ℝ) (hg : logGradient lambda X y v = .ok g) (w : List ℝ) (m : ℝ) (hm : Minimises (logEvaluate lambda X y) w m) :
    lambda * gap v w ≤ X.nrows * rowSize g := by
  obtain ⟨u, k, h1, h2, h3⟩ := C125_log lambda hl X hX (by simpa [DMat.nrows] using hn) y hy
  have hk : m = k := le_antisymm (hm.2 _ _ h1.1) (h1.2 _ _ hm.1)
  subst hk
  obtain rfl := h2 w hm
  have hvl : v.length = X.ncols := evaluate_length hg
  obtain ⟨v', rfl⟩ := exists_ofFn v hvl
  obtain ⟨b, hb⟩ : ∃ b, logEvaluate lambda X y (List.ofFn v') = .ok b := ⟨_, logEvaluate_eq lambda X hX y hy v'⟩
  have h4 := (h3 _ b g hb hg).2.2
  have h5 : gap (List.ofFn v') w ≤ X.nrows / lambda * rowSize g := by
    unfold gap rowSize
    rw [show (X.nrows : ℝ) / lambda = Real.sqrt ((X.nrows / lambda) ^ 2) from (Real.sqrt_sq (by positivity)).symm,
      ← Real.sqrt_mul (by positivity)]
    exact Real.sqrt_le_sqrt h4
  calc lambda * gap (List.ofFn v') w ≤ lambda * (X.nrows / lambda * rowSize g) := mul_le_mul_of_nonneg_left h5 hl.le
    _ = X.nrows * rowSize g := by field_simp

theorem rowSize_len (g : List ℝ) : len Real.sqrt g = rowSize g := by
  unfold Spec.len rowSize
  simp only [sq]

end SolversAgree

open SolversAgree

/-- C170: two weight vectors, whichever solvers found them, are at most as far apart as the lengths of the gradients there, times the
number of samples, divided by the penalty. -/
theorem C170_weights (lambda : ℝ) (hl : 0 < lambda) (X : DMat ℝ) (hX : X.WF) (hn : X.nrows ≠ 0) (y : List ℝ) (hy : y.length = X.nrows)
    (v w g h : List ℝ) (hg : logGradient lambda X y v = .ok g) (hh : logGradient lambda X y w = .ok h) :
    lambda * gap v w ≤ X.nrows * (rowSize g + rowSize h) := by
  obtain ⟨u, k, h1, -⟩ := C125_log lambda hl X hX (by simpa [DMat.nrows] using hn) y hy
  have h2 := gap_minimum lambda hl X hX hn y hy v g hg u k h1
  have h3 := gap_minimum lambda hl X hX hn y hy w h hh u k h1
  have h4 := mul_le_mul_of_nonneg_left (gap_triangle v u w X.ncols (evaluate_length hg) (evaluate_length h1.1) (evaluate_length hh)) hl.le
  linarith

/-- Example: weights zero and the weights with a vanishing gradient. -/
example : ∃ v g h, logGradient 1 ⟨1, [[1], [-1]]⟩ [1, 0] [0] = .ok g ∧ logGradient 1 ⟨1, [[1], [-1]]⟩ [1, 0] v = .ok h := by
  have hX : (⟨1, [[1], [-1]]⟩ : DMat ℝ).WF := by intro r hr; simp_all; rcases hr with rfl | rfl <;> rfl
  exact ⟨[7], _, _, logGradient_eq 1 ⟨1, [[1], [-1]]⟩ hX [1, 0] rfl ![0], logGradient_eq 1 ⟨1, [[1], [-1]]⟩ hX [1, 0] rfl ![7]⟩

/-- C170: what predictions with two weight vectors have in common: probabilities differ by at most a quarter of the distance of the
weights times the length of the sample with a one appended, and the labels are equal if one of the probabilities is further than that
from one half. -/
theorem C170_predictions (v w : List ℝ) (Z : DMat ℝ) (hZ : Z.WF) (hv : v.length = Z.ncols + 1) (hw : w.length = Z.ncols + 1) :
    ∃ P Q ys zs, logisticProb v Z = .ok P ∧ logisticProb w Z = .ok Q ∧ predictLogistic v Z = .ok ys ∧ predictLogistic w Z = .ok zs ∧
      ∀ (i : Nat) (x : List ℝ), Z.rows[i]? = some x → ∃ p q a b, P.rows[i]? = some [p, 1 - p] ∧ Q.rows[i]? = some [q, 1 - q] ∧
        ys[i]? = some a ∧ zs[i]? = some b ∧ |p - q| ≤ 1 / 4 * (rowSize (x ++ [1]) * gap v w) ∧
        (1 / 4 * (rowSize (x ++ [1]) * gap v w) < |p - 1 / 2| → a = b) := by
  obtain ⟨P, ys, hP, hys, -, -, h1⟩ := C58_prob v Z hZ hv
  obtain ⟨Q, zs, hQ, hzs, -, -, h2⟩ := C58_prob w Z hZ hw
  obtain ⟨P', Q', hP', hQ', h3⟩ := C167_probability v w Z hZ hv hw
  obtain rfl : P = P' := Res.ok.inj (hP.symm.trans hP')
  obtain rfl : Q = Q' := Res.ok.inj (hQ.symm.trans hQ')
  obtain ⟨ys', hy', -, hy1⟩ := C58_predicts_less_likely v Z hZ hv
  obtain ⟨zs', hz', -, hz1⟩ := C58_predicts_less_likely w Z hZ hw
  obtain rfl : ys = ys' := Res.ok.inj (hys.symm.trans hy')
  obtain rfl : zs = zs' := Res.ok.inj (hzs.symm.trans hz')
  refine ⟨P, Q, ys, zs, hP, hQ, hys, hzs, fun i x hx => ?_⟩
  obtain ⟨p, p', a, e1, e2, -, -, e3, -, e4⟩ := h1 i x hx
  obtain ⟨q, q', b, f1, f2, -, -, f3, -, f4⟩ := h2 i x hx
  obtain ⟨p0, q0, g1, g2, g3⟩ := h3 i x hx
  rw [e1] at g1
  rw [f1] at g2
  simp only [Option.some.injEq, List.cons.injEq, and_true] at g1 g2
  obtain ⟨rfl, rfl⟩ := g1
  obtain ⟨rfl, rfl⟩ := g2
  have ha := (hy1 i x a hx e2).1
  have hb := (hz1 i x b hx f2).1
  refine ⟨p, q, a, b, e1, f1, e2, f2, g3, fun hfar => ?_⟩
  have key : (1 - p < p ↔ 1 - q < q) := by
    have h5 := g3.trans_lt hfar
    constructor <;> intro h6 <;> by_contra h7
    · rw [abs_of_pos (by linarith : 0 < p - 1 / 2)] at h5
      linarith [le_abs_self (p - q)]
    · rw [abs_of_nonpos (by linarith : p - 1 / 2 ≤ 0)] at h5
      linarith [neg_abs_le (p - q)]
  have h8 : a = 0 ↔ b = 0 := e4.trans (key.trans f4.symm)
  rcases ha with rfl | rfl <;> rcases hb with rfl | rfl <;> simp_all

/-- Example: the weights 4 and 3 with one sample 2: the bound on the difference of the probabilities is less than 3 / 5. -/
example : (⟨1, [[2]]⟩ : DMat ℝ).WF ∧ 1 / 4 * (rowSize ([2] ++ [1]) * gap [4, 0] [3, 0]) < (3 / 5 : ℝ) := by
  refine ⟨by intro r hr; simp_all, ?_⟩
  have h : gap [4, 0] [3, 0] = 1 := by norm_num [gap, weightDist]
  have h5 : rowSize ([2] ++ [1]) < 12 / 5 := by
    unfold rowSize
    rw [Real.sqrt_lt' (by norm_num)]
    norm_num
  rw [h]
  linarith

/-- C170: solvers `sgd` and `sag` with all samples in one batch: how long the gradient at the published weights is, and how far these
are from the minimising weights. -/
theorem C170_descent (m : Members) (hl : 0 < m.lambda) (perms : Nat → List Nat) (junk : Nat → ℝ) (fuel : Nat) (X : DMat ℝ) (hX : X.WF)
    (hn : X.nrows ≠ 0) (y : List ℝ) (hy : y.length = X.nrows) (hlab : ∀ a ∈ y, 0 ≤ a ∧ a ≤ 1) (init : List ℝ)
    (hi : init.length = X.ncols + 1) (a : ℝ) (ha : logEvaluate m.lambda (withOnes X) y init = .ok a)
    (hm : GradientSettings m perms (withOnes X) a) (w : List ℝ) (h : fit m perms junk fuel X y init = .ok w) :
    ∃ K, m.noChange ≤ K ∧ K < m.maxIter ∧
      (∃ g, logGradient m.lambda (withOnes X) y w = .ok g ∧ epochRate m X.nrows K * rowSize g ^ 2 < 2 * m.tol * X.nrows) ∧
      ∀ v k, Minimises (logEvaluate m.lambda (withOnes X) y) v k →
        epochRate m X.nrows K * (m.lambda * gap w v) ^ 2 < 2 * m.tol * X.nrows ^ 3 := by
  have hnr : (withOnes X).nrows = X.nrows := by simp [withOnes, DMat.nrows]
  have hrows : (withOnes X).rows = X.rows.map fun r => r ++ [1] := rfl
  have hn' : (0 : ℝ) < X.nrows := Nat.cast_pos.mpr (Nat.pos_of_ne_zero hn)
  have hperm : ∀ q, (sgdParams m perms).shuffle = some q → ∀ i, (q i).Perm (List.range X.nrows) := by
    intro q hq i
    rw [← hnr]
    simp only [sgdParams] at hq
    split at hq
    · obtain rfl := Option.some.inj hq
      exact hm.perms i
    · cases hq
  have hpos : 0 < (if m.solver = "sgd" then m.alpha else m.alpha / X.nrows) := by
    have := hm.positive
    split <;> positivity
  have hS : 0 ≤ steepness (1 / 4) m.lambda (X.rows.map fun r => r ++ [1]) := Descent.steepness_nonneg _ _ (by norm_num) hl.le _
  have hpow : ∀ K : Nat, (0 : ℝ) < 0.5 ^ K ∧ (0.5 : ℝ) ^ K ≤ 1 := fun K => ⟨by positivity, pow_le_one₀ (by norm_num) (by norm_num)⟩
  have hrate : ∀ i, epochRate m X.nrows i * steepness (1 / 4) m.lambda (X.rows.map fun r => r ++ [1]) ≤ 1 := by
    intro i
    have h1 := hm.rate
    rw [hnr, hrows] at h1
    refine le_trans (mul_le_mul_of_nonneg_right ?_ hS) h1
    exact mul_le_of_le_one_right hpos.le (hpow _).2
  have hclip := hm.noClip
  rw [hrows] at hclip
  have key : ∃ K, m.noChange ≤ K ∧ K < m.maxIter ∧ ∃ g, logGradient m.lambda (withOnes X) y w = .ok g ∧
      epochRate m X.nrows K * (g.map fun x => x ^ 2).sum < 2 * m.tol * X.nrows := by
    have hb : m.batchSize = X.nrows := hm.batch.trans hnr
    rcases hm.solver with hs | hs
    · unfold fit at h
      rw [hs] at h
      exact C106_log_gradient m.lambda m.l1Ratio m.penalty hm.penalty hl.le (sgdParams m perms) _ X hX hn y hy hb hperm
        (epochRate m X.nrows)
        (fun i => by
          simp only [sgdParams, SGD.stepDecay, epochRate, hs]
          norm_num) init w hi h hm.patience hlab
        (fun i => mul_pos hpos (hpow _).1) hrate a ha hclip
    · unfold fit at h
      rw [hs, C108_logistic m.lambda m.l1Ratio m.penalty _ _ X hn y init hb hi] at h
      exact C106_log_gradient m.lambda m.l1Ratio m.penalty hm.penalty hl.le
        { sgdParams m perms with decay := fun i => do let lr ← (sgdParams m perms).decay i; .ok (lr / (X.nrows : ℝ)) } _ X hX hn y hy hb hperm
        (epochRate m X.nrows)
        (fun i => by
          have : ¬ m.solver = "sgd" := by rw [hs]; decide
          simp only [sgdParams, SGD.stepDecay, epochRate, if_neg this]
          rw [if_neg (by decide), Res.bind_ok]
          congr 1
          ring) init w hi h hm.patience hlab
        (fun i => mul_pos hpos (hpow _).1) hrate a ha hclip
  obtain ⟨K, hK1, hK2, g, hg, hlt⟩ := key
  have hsq : rowSize g ^ 2 = (g.map fun x => x ^ 2).sum := by
    unfold rowSize
    refine Real.sq_sqrt (List.sum_nonneg ?_)
    simp only [List.mem_map, forall_exists_index, and_imp, forall_apply_eq_imp_iff₂]
    exact fun a _ => sq_nonneg a
  refine ⟨K, hK1, hK2, ⟨g, hg, by rwa [hsq]⟩, fun v k hv => ?_⟩
  have h2 := gap_minimum m.lambda hl (withOnes X) (withOnes_wf X hX) (by rw [hnr]; exact hn) y (by rw [hnr]; exact hy) w g hg v k hv
  rw [hnr] at h2
  have h3 : (m.lambda * gap w v) ^ 2 ≤ (X.nrows * rowSize g) ^ 2 :=
    pow_le_pow_left₀ (mul_nonneg hl.le (Real.sqrt_nonneg _)) h2 2
  have h4 : 0 < epochRate m X.nrows K := mul_pos hpos (hpow _).1
  calc epochRate m X.nrows K * (m.lambda * gap w v) ^ 2 ≤ epochRate m X.nrows K * (X.nrows * rowSize g) ^ 2 :=
        mul_le_mul_of_nonneg_left h3 h4.le
    _ = X.nrows ^ 2 * (epochRate m X.nrows K * rowSize g ^ 2) := by ring
    _ < X.nrows ^ 2 * (2 * m.tol * X.nrows) := by
        rw [hsq]
        exact mul_lt_mul_of_pos_left hlt (by positivity)
    _ = 2 * m.tol * X.nrows ^ 3 := by ring

/-- C170: gradient descent with all samples in one batch and L-BFGS, started from any weights and with any random numbers, find weights
that differ by at most the sum of their tolerances for the gradient, times the number of samples, divided by the penalty; unless L-BFGS
finds its initial weights good enough, and publishes none. -/
theorem C170_solvers (m m' : Members) (hl : 0 < m.lambda) (hl' : m'.lambda = m.lambda) (perms perms' : Nat → List Nat) (junk junk' : Nat → ℝ)
    (fuel : Nat) (X : DMat ℝ) (hX : X.WF) (hn : X.nrows ≠ 0) (y : List ℝ) (hy : y.length = X.nrows) (hlab : ∀ a ∈ y, 0 ≤ a ∧ a ≤ 1)
    (init init' g0 : List ℝ) (hi : init.length = X.ncols + 1) (hi' : init'.length = X.ncols + 1) (a : ℝ)
    (ha : logEvaluate m.lambda (withOnes X) y init = .ok a) (hg0 : logGradient m.lambda (withOnes X) y init' = .ok g0) (A B N : Nat)
    (hm : GradientSettings m perms (withOnes X) a) (hm' : QuasiNewtonSettings m' (withOnes X) g0 A B N) (w : List ℝ)
    (h : fit m perms junk fuel X y init = .ok w) (fuel' : Nat) (hfuel : N ≤ fuel') :
    (rowSize g0 ≤ m'.tol * max 1 (rowSize init') ∧ fit m' perms' junk' fuel' X y init' = .ok []) ∨
    ∃ w' K, fit m' perms' junk' fuel' X y init' = .ok w' ∧ m.noChange ≤ K ∧ K < m.maxIter ∧
      m.lambda * gap w w' ≤ X.nrows * (Real.sqrt (2 * m.tol * X.nrows / epochRate m X.nrows K) + m'.tol * max 1 (rowSize w')) := by
  have hnr : (withOnes X).nrows = X.nrows := by simp [withOnes, DMat.nrows]
  obtain ⟨K, hK1, hK2, ⟨g, hg, hlt⟩, -⟩ := C170_descent m hl perms junk fuel X hX hn y hy hlab init hi a ha hm w h
  have hwide := hm'.wide
  have henough := hm'.enough
  rw [← rowSize_len] at hwide
  rw [hnr] at hwide henough
  rw [← hl'] at hg0 hg hl ⊢
  rcases C139_logistic m' hm'.penalty hm'.solver hl hm'.policy hm'.condition hm'.wolfe hm'.ftol hm'.product hm'.tol hm'.delta
    hm'.memory hm'.past X hX hn y hy init' g0 hi' hg0 perms' junk' A B N hwide henough hm'.limit fuel' hfuel with
    ⟨h1, h2⟩ | ⟨w', f, g', h1, -, -, h2, h3, -⟩
  · rw [rowSize_len, rowSize_len] at h1
    exact Or.inl ⟨h1, h2⟩
  · refine Or.inr ⟨w', K, h1, hK1, hK2, ?_⟩
    rw [rowSize_len, rowSize_len] at h3
    have h4 := C170_weights m'.lambda hl (withOnes X) (withOnes_wf X hX) (by rw [hnr]; exact hn) y (by rw [hnr]; exact hy) w w' g g' hg h2
    rw [hnr] at h4
    have hr : 0 < epochRate m X.nrows K := by
      unfold epochRate
      have hn' : (0 : ℝ) < X.nrows := Nat.cast_pos.mpr (Nat.pos_of_ne_zero hn)
      have := hm.positive
      refine mul_pos ?_ (by positivity)
      split <;> positivity
    have h5 : rowSize g ≤ Real.sqrt (2 * m.tol * X.nrows / epochRate m X.nrows K) := by
      refine Real.le_sqrt_of_sq_le ?_
      rw [le_div_iff₀ hr, mul_comm]
      exact hlt.le
    exact h4.trans (mul_le_mul_of_nonneg_left (add_le_add h5 h3) (Nat.cast_nonneg _))

/-- Example for `C170_descent` and `C170_solvers`: two samples without features, one of each class, the penalty 1 / 2. Gradient descent
starts at 0, L-BFGS at 1. -/
example : ∃ (m m' : Members) (a : ℝ) (w g0 : List ℝ), m.lambda = 1 / 2 ∧ m'.lambda = 1 / 2 ∧
    logEvaluate m.lambda (withOnes two) [0, 1] [0] = .ok a ∧ logGradient m'.lambda (withOnes two) [0, 1] [1] = .ok g0 ∧
    (∀ perms, (∀ i, (perms i).Perm (List.range 2)) → GradientSettings m perms (withOnes two) a) ∧
    QuasiNewtonSettings m' (withOnes two) g0 0 6 10000000 ∧ fit m (fun _ => [0, 1]) (fun _ => 0) 0 two [0, 1] [0] = .ok w := by
  let m' : Members := ⟨false, false, 0, 1 / 2, 1 / 10, 0, 1 / 10, 9 / 10, 0, 0, 10, 0, 0, 1, 1, "lbfgs", "l2", "bracketing", "WOLFE"⟩
  have hmono : Real.sigmoid 0 < Real.sigmoid 1 := Real.sigmoid_strictMono (by norm_num)
  rw [Real.sigmoid_zero] at hmono
  have hlt := Real.sigmoid_lt_one 1
  obtain ⟨G, hG⟩ : ∃ G, G = Real.sigmoid 1 - 1 / 2 + 1 / 2 * (1 / 2) := ⟨_, rfl⟩
  have hg : logGradient m'.lambda (withOnes two) [0, 1] [1] = .ok [G] := by
    rw [hG, withOnes_two]
    exact gradient_two (1 / 2) 1 [0, 1] (Or.inl rfl)
  have hG1 : 1 / 4 < G := by
    norm_num at hmono ⊢
    linarith
  have hG2 : G < 3 / 4 := by linarith
  have hlen : rowSize [G] = G := by
    unfold rowSize
    rw [show ([G].map fun a : ℝ => a ^ 2).sum = G ^ 2 by simp, Real.sqrt_sq (by linarith)]
  have hmu : m'.lambda / ((withOnes two).nrows : ℝ) = 1 / 4 := by
    rw [withOnes_two]
    norm_num [m', DMat.nrows]
  have hL : steepness (1 / 4) (1 / 2) (withOnes two).rows = 1 / 2 := by
    rw [withOnes_two]
    norm_num [steepness, featureMass]
  have hgain : lbfgsGain m'.memSize (1 / 4) (1 / 2) m'.ftol m'.wolfe = 1 / 8000 := by
    norm_num [lbfgsGain, bfgsCondition, m']
  have hW : WideSearch (lbfgsParams m') (1 / 4) (1 / 2) G 0 6 := by
    constructor <;> norm_num [lbfgsParams, m', bfgsLower, bfgsUpper] <;> linarith
  let m : Nat → Members := fun n =>
    ⟨true, false, 1, 1 / 2, 1 / 10, 0, 0, 0, 0, 5, 0, 2, n, 0, 0, "sgd", "l2", "", ""⟩
  obtain ⟨a, ha, ha1⟩ : ∃ a, logEvaluate (1 / 2) (withOnes two) [0, 1] [0] = .ok a ∧ 2 * (1 / 2) * a ≤ (10 : ℝ) ^ 20 := by
    refine ⟨Real.log 2, ?_, ?_⟩
    · have := logEvaluate_eq (1 / 2) (withOnes two) (withOnes_wf two (by intro r hr; simp_all [two])) [0, 1] rfl fun _ => 0
      rw [show List.ofFn (fun _ : Fin (withOnes two).ncols => (0 : ℝ)) = [0] by simp [withOnes, two, List.ofFn_succ]] at this
      rw [this]
      congr 1
      have hs : Real.sigmoid 0 = 1 / 2 := by norm_num [Real.sigmoid]
      have h2 : (1 : ℝ) - 1 / 2 = 1 / 2 := by norm_num
      have hl : Real.log (1 / 2) = -Real.log 2 := by rw [one_div, Real.log_inv]
      have hc : ∀ a : ℝ, crossEntropy a 0 = Real.log 2 := by
        intro a
        rw [crossEntropy, hs, h2, hl]
        ring
      have hsc : ∀ (d : Nat) (x : List ℝ), score x (fun _ : Fin d => (0 : ℝ)) = 0 := by
        intro d x; simp [score]
      unfold meanLoss ridgeTerm
      simp only [hsc, hc, withOnes_two]
      norm_num
    · have := Real.log_le_sub_one_of_pos (show (0 : ℝ) < 2 by norm_num)
      linarith
  obtain ⟨M, w, hw⟩ := C126_logistic (1 / 2) 0 "l2" "sgd" (Or.inl rfl) (Or.inl rfl) (by norm_num) (sgdParams (m 0) fun _ => [0, 1])
    (fun loss X y w => do
      let r ← LBFGS.optimize Real.sqrt (lbfgsParams (m 0)) (fun _ => 0) 0 loss X y w
      .ok (r.getD [])) (by norm_num [sgdParams, m]) (by norm_num [sgdParams, m]) two (by intro r hr; simp_all [two]) [0, 1] rfl
    (by intro a ha; simp at ha; rcases ha with rfl | rfl <;> norm_num)
    (by
      intro q hq i
      obtain rfl := Option.some.inj hq
      exact List.Perm.refl _) (fun i => ⟨_, show SGD.stepDecay _ _ 10 i = _ from if_neg (by decide)⟩) [0] rfl
  refine ⟨m (M + 1), m', a, w, [G], rfl, rfl, ha, hg, fun perms hp => ?_, ?_, ?_⟩
  · exact ⟨Or.inl rfl, Or.inl rfl, rfl, by norm_num [m], by norm_num [m], by
      rw [show (m (M + 1)).lambda = 1 / 2 from rfl, hL]
      norm_num [m], by
      rw [show (m (M + 1)).lambda = 1 / 2 from rfl, hL]
      exact ha1, hp⟩
  · refine ⟨rfl, Or.inl rfl, rfl, by change "WOLFE" ≠ "ARMIJO"; decide, by norm_num [m'], by norm_num [m'], by norm_num [m'],
      by norm_num [m'], by norm_num [m'], Nat.one_pos, Nat.one_pos, ?_, ?_, Or.inl rfl⟩
    · rw [hmu, show m'.lambda = 1 / 2 from rfl, hL, hlen]
      exact hW
    · rw [hmu, show m'.lambda = 1 / 2 from rfl, hL, hgain]
      have : ([G].map fun a : ℝ => a ^ 2).sum = G ^ 2 := by simp
      rw [this]
      norm_num [m']
      nlinarith
  · have h := hw (M + 1)
    rw [if_pos (Nat.lt_succ_self M)] at h
    exact h

end OpenML
