import Verif.Lemmas.SoftmaxLoss
import Mathlib.Data.Fin.VecNotation

/-!
# The softmax loss (C116)
-/

namespace OpenML

open Spec Loss
open scoped BigOperators

namespace Softmax

variable {d k : Nat}

/-- Log-sum-exp lies above its tangents. -/
theorem lse_tangent (s t : Fin k → ℝ) (c0 : Fin k) :
    Real.log (∑ c, Real.exp (s c)) + ∑ c, Real.exp (s c) / (∑ b, Real.exp (s b)) * (t c - s c) ≤ Real.log (∑ c, Real.exp (t c)) := by
  set Z := ∑ b, Real.exp (s b) with hZ
  have hZ0 : 0 < Z := Finset.sum_pos (fun c _ => Real.exp_pos _) ⟨c0, Finset.mem_univ c0⟩
  set m := ∑ c, Real.exp (s c) / Z * (t c - s c) with hm
  have h1 : ∑ c, Real.exp (s c) / Z = 1 := by
    rw [← Finset.sum_div, ← hZ, div_self hZ0.ne']
  have h2 : Z * Real.exp m ≤ ∑ c, Real.exp (t c) := by
    have h3 : ∀ c, Real.exp (s c) / Z * (1 + (t c - s c - m)) * (Z * Real.exp m) ≤ Real.exp (t c) := by
      intro c
      have h4 : 1 + (t c - s c - m) ≤ Real.exp (t c - s c - m) := by
        have := Real.add_one_le_exp (t c - s c - m)
        linarith
      have h5 : Real.exp (t c) = Real.exp (s c) / Z * Real.exp (t c - s c - m) * (Z * Real.exp m) := by
        rw [show Real.exp (s c) / Z * Real.exp (t c - s c - m) * (Z * Real.exp m) =
          Real.exp (s c) * Real.exp (t c - s c - m) * Real.exp m * (Z / Z) by ring, div_self hZ0.ne', mul_one, ← Real.exp_add, ← Real.exp_add]
        congr 1
        ring
      rw [h5]
      refine mul_le_mul_of_nonneg_right (mul_le_mul_of_nonneg_left h4 (div_nonneg (Real.exp_pos _).le hZ0.le))
        (mul_nonneg hZ0.le (Real.exp_pos _).le)
    have h6 := Finset.sum_le_sum fun c (_ : c ∈ Finset.univ) => h3 c
    rw [← Finset.sum_mul] at h6
    have h7 : ∑ c, Real.exp (s c) / Z * (1 + (t c - s c - m)) = 1 := by
      have : ∀ c, Real.exp (s c) / Z * (1 + (t c - s c - m)) =
          Real.exp (s c) / Z * (1 - m) + Real.exp (s c) / Z * (t c - s c) := fun c => by ring
      rw [Finset.sum_congr rfl fun c _ => this c, Finset.sum_add_distrib, ← Finset.sum_mul, h1, ← hm]
      ring
    rwa [h7, one_mul] at h6
  have h8 := Real.log_le_log (mul_pos hZ0 (Real.exp_pos m)) h2
  rwa [Real.log_mul hZ0.ne' (Real.exp_pos m).ne', Real.log_exp] at h8

theorem cscore_sub (v w : Fin d → Fin k → ℝ) (x : List ℝ) (c : Fin k) :
    cscore v x c - cscore w x c = ∑ f : Fin d, x.getD f 0 * (v f c - w f c) := by
  unfold cscore score
  rw [← Finset.sum_sub_distrib]
  exact Finset.sum_congr rfl fun f _ => by ring

theorem classLoss_tangent (v w : Fin d → Fin k → ℝ) (p : List ℝ × Fin k) :
    classLoss w p + ∑ c, (Real.exp (cscore w p.1 c) / ∑ b, Real.exp (cscore w p.1 b) - if c = p.2 then 1 else 0) *
      (cscore v p.1 c - cscore w p.1 c) ≤ classLoss v p := by
  have h := lse_tangent (cscore w p.1) (cscore v p.1) p.2
  have e : ∑ c, (Real.exp (cscore w p.1 c) / ∑ b, Real.exp (cscore w p.1 b) - if c = p.2 then 1 else 0) *
      (cscore v p.1 c - cscore w p.1 c) = ∑ c, Real.exp (cscore w p.1 c) / (∑ b, Real.exp (cscore w p.1 b)) *
        (cscore v p.1 c - cscore w p.1 c) - (cscore v p.1 p.2 - cscore w p.1 p.2) := by
    simp only [sub_mul, Finset.sum_sub_distrib, ite_mul, one_mul, zero_mul, Finset.sum_ite_eq', Finset.mem_univ, if_true]
  rw [e]
  have e1 : classLoss w p = Real.log (∑ c, Real.exp (cscore w p.1 c)) - cscore w p.1 p.2 := rfl
  have e2 : classLoss v p = Real.log (∑ c, Real.exp (cscore v p.1 c)) - cscore v p.1 p.2 := rfl
  rw [e1, e2]
  linarith

theorem sum_tangent (l : List (List ℝ × Fin k)) (n : Nat) (v w : Fin d → Fin k → ℝ) :
    (l.map (classLoss w)).sum / n + ∑ f, ∑ c, softmaxGrad 0 l n w f c * (v f c - w f c) ≤ (l.map (classLoss v)).sum / n := by
  have e : ∑ f, ∑ c, softmaxGrad 0 l n w f c * (v f c - w f c) = (l.map fun p =>
      ∑ c, (Real.exp (cscore w p.1 c) / ∑ b, Real.exp (cscore w p.1 b) - if c = p.2 then 1 else 0) *
        (cscore v p.1 c - cscore w p.1 c)).sum / n := by
    unfold softmaxGrad
    simp only [mul_zero, add_zero]
    induction l with
    | nil => simp
    | cons p l ih =>
      simp only [List.map_cons, List.sum_cons, add_div, add_mul, Finset.sum_add_distrib]
      rw [ih]
      congr 1
      rw [Finset.sum_comm, Finset.sum_div]
      refine Finset.sum_congr rfl fun c _ => ?_
      rw [cscore_sub, Finset.mul_sum, Finset.sum_div]
      exact Finset.sum_congr rfl fun f _ => by ring
  rw [e, ← add_div]
  refine div_le_div_of_nonneg_right ?_ (Nat.cast_nonneg n)
  rw [← List.sum_map_add]
  exact List.sum_le_sum fun p _ => classLoss_tangent v w p

end Softmax

open Softmax

/-- **C116.** Without penalty the softmax loss lies above its tangents: it is convex. -/
theorem C116_convex {k : Nat} (hk : 0 < k) (X : DMat ℝ) (hX : X.WF) (hn : X.rows ≠ []) (labels : List (Fin k))
    (hl : labels.length = X.nrows) (v w g : Fin X.ncols → Fin k → ℝ) (a b : ℝ)
    (ha : softmaxEvaluate 0 X (labels.map fun c => ((c.val : Nat) : ℝ)) (toDMat w) = .ok a)
    (hg : softmaxGradient 0 X (labels.map fun c => ((c.val : Nat) : ℝ)) (toDMat w) = .ok (toDMat g))
    (hb : softmaxEvaluate 0 X (labels.map fun c => ((c.val : Nat) : ℝ)) (toDMat v) = .ok b) :
    a + ∑ f, ∑ c, g f c * (v f c - w f c) ≤ b := by
  have h1 := softmaxEvaluate_eq hk 0 X hX hn labels hl w
  have h2 := softmaxEvaluate_eq hk 0 X hX hn labels hl v
  have h3 := softmaxGradient_eq hk 0 X hX hn labels hl w
  unfold labelVec at h1 h2 h3
  rw [h1, Res.ok.injEq] at ha
  rw [h2, Res.ok.injEq] at hb
  rw [h3, Res.ok.injEq] at hg
  have hg' : softmaxGrad 0 (X.rows.zip labels) X.nrows w = g := by
    have := congrArg DMat.rows hg
    unfold toDMat at this
    dsimp only at this
    funext f
    have h4 := List.ofFn_injective this
    exact List.ofFn_injective (congrFun h4 f)
  rw [← ha, ← hb, ← hg']
  simpa using sum_tangent (X.rows.zip labels) X.nrows v w

/-- **C116.** Where `SoftmaxLoss::gradient` without penalty returns zero, `SoftmaxLoss::evaluate` is minimal over all weights. -/
theorem C116_minimum {k : Nat} (hk : 0 < k) (X : DMat ℝ) (hX : X.WF) (hn : X.rows ≠ []) (labels : List (Fin k))
    (hl : labels.length = X.nrows) (v w : Fin X.ncols → Fin k → ℝ) (a b : ℝ)
    (ha : softmaxEvaluate 0 X (labels.map fun c => ((c.val : Nat) : ℝ)) (toDMat w) = .ok a)
    (hg : softmaxGradient 0 X (labels.map fun c => ((c.val : Nat) : ℝ)) (toDMat w) = .ok (toDMat fun (_ : Fin X.ncols) (_ : Fin k) => 0))
    (hb : softmaxEvaluate 0 X (labels.map fun c => ((c.val : Nat) : ℝ)) (toDMat v) = .ok b) : a ≤ b := by
  simpa using C116_convex hk X hX hn labels hl v w _ a b ha hg hb

/-- **C116.** Adding the same weights to all classes changes neither the loss without penalty nor its gradient. -/
theorem C116_shift {k : Nat} (hk : 0 < k) (X : DMat ℝ) (hX : X.WF) (hn : X.rows ≠ []) (labels : List (Fin k))
    (hl : labels.length = X.nrows) (w : Fin X.ncols → Fin k → ℝ) (t : Fin X.ncols → ℝ) :
    softmaxEvaluate 0 X (labels.map fun c => ((c.val : Nat) : ℝ)) (toDMat fun f c => w f c + t f) =
      softmaxEvaluate 0 X (labels.map fun c => ((c.val : Nat) : ℝ)) (toDMat w) ∧
    softmaxGradient 0 X (labels.map fun c => ((c.val : Nat) : ℝ)) (toDMat fun f c => w f c + t f) =
      softmaxGradient 0 X (labels.map fun c => ((c.val : Nat) : ℝ)) (toDMat w) := by
  have hs : ∀ (x : List ℝ) (c : Fin k), cscore (fun f c => w f c + t f) x c = cscore w x c + score x t := by
    intro x c
    unfold cscore score
    rw [← Finset.sum_add_distrib]
    exact Finset.sum_congr rfl fun f _ => by ring
  have h1 := fun w => softmaxEvaluate_eq hk 0 X hX hn labels hl w
  have h3 := fun w => softmaxGradient_eq hk 0 X hX hn labels hl w
  unfold labelVec at h1 h3
  rw [h1, h1, h3, h3]
  have hZ : ∀ x, ∑ c, Real.exp (cscore (fun f c => w f c + t f) x c) = (∑ c, Real.exp (cscore w x c)) * Real.exp (score x t) := by
    intro x
    rw [Finset.sum_mul]
    exact Finset.sum_congr rfl fun c _ => by rw [hs, Real.exp_add]
  constructor
  · congr 1
    rw [zero_mul, zero_mul]
    congr 3
    refine List.map_congr_left fun p _ => ?_
    have hpos : 0 < ∑ c, Real.exp (cscore w p.1 c) := Finset.sum_pos (fun c _ => Real.exp_pos _) ⟨p.2, Finset.mem_univ _⟩
    change Real.log (∑ c, Real.exp (cscore (fun f c => w f c + t f) p.1 c)) - cscore (fun f c => w f c + t f) p.1 p.2 =
      Real.log (∑ c, Real.exp (cscore w p.1 c)) - cscore w p.1 p.2
    rw [hZ, hs, Real.log_mul hpos.ne' (Real.exp_pos _).ne', Real.log_exp]
    ring
  · congr 2
    funext f c
    unfold softmaxGrad
    rw [mul_zero, mul_zero]
    congr 3
    refine List.map_congr_left fun p _ => ?_
    rw [hZ, hs, Real.exp_add, mul_div_mul_right _ _ (Real.exp_pos _).ne']

/-- **C116.** The penalty does not change the smallest possible loss: whatever a loss without penalty can reach is reached with
penalty as well, at weights whose rows sum up to zero. -/
theorem C116_penalty {k : Nat} (hk : 0 < k) (lambda : ℝ) (X : DMat ℝ) (hX : X.WF) (hn : X.rows ≠ []) (labels : List (Fin k))
    (hl : labels.length = X.nrows) (w : Fin X.ncols → Fin k → ℝ) :
    ∃ v : Fin X.ncols → Fin k → ℝ, (∀ f c b, v f c - v f b = w f c - w f b) ∧
      softmaxEvaluate lambda X (labels.map fun c => ((c.val : Nat) : ℝ)) (toDMat v) =
        softmaxEvaluate 0 X (labels.map fun c => ((c.val : Nat) : ℝ)) (toDMat w) := by
  refine ⟨fun f c => w f c + -(∑ b, w f b) / k, fun f c b => by ring, ?_⟩
  rw [← (C116_shift hk X hX hn labels hl w fun f => -(∑ b, w f b) / k).1]
  have h1 := fun lambda w => softmaxEvaluate_eq hk lambda X hX hn labels hl w
  unfold labelVec at h1
  rw [h1, h1]
  congr 2
  have hk' : (k : ℝ) ≠ 0 := by exact_mod_cast hk.ne'
  have : rowSumTerm X.nrows (fun (f : Fin X.ncols) (c : Fin k) => w f c + -(∑ b, w f b) / k) = 0 := by
    unfold rowSumTerm
    rw [Finset.sum_eq_zero, zero_div]
    intro f _
    rw [Finset.sum_add_distrib, Finset.sum_const, Finset.card_univ, Fintype.card_fin, nsmul_eq_mul, mul_div_cancel₀ _ hk']
    ring
  rw [this, mul_zero, zero_mul]

/-- **C116.** With two classes the softmax loss without penalty is the log loss at the difference of the weights. -/
theorem C116_two_classes (X : DMat ℝ) (hX : X.WF) (hn : X.rows ≠ []) (labels : List (Fin 2))
    (hl : labels.length = X.nrows) (w : Fin X.ncols → Fin 2 → ℝ) :
    softmaxEvaluate 0 X (labels.map fun c => ((c.val : Nat) : ℝ)) (toDMat w) =
      logEvaluate 0 X (labels.map fun c => ((c.val : Nat) : ℝ)) (List.ofFn fun f => w f 1 - w f 0) := by
  have h1 := softmaxEvaluate_eq (by norm_num) 0 X hX hn labels hl w
  unfold labelVec at h1
  rw [h1, logEvaluate_eq 0 X hX _ (by rw [List.length_map]; exact hl)]
  have hlen : (X.rows.zip (labels.map fun c => ((c.val : Nat) : ℝ))).length = X.nrows := by
    rw [List.length_zip, List.length_map, hl]; exact Nat.min_self _
  congr 1
  unfold meanLoss
  rw [zero_mul, zero_mul, hlen]
  congr 2
  rw [List.zip_map_right, List.map_map]
  refine congrArg List.sum (List.map_congr_left fun p _ => ?_)
  have hs : score p.1 (fun f => w f 1 - w f 0) = cscore w p.1 1 - cscore w p.1 0 := by
    rw [cscore, cscore]
    unfold score
    rw [← Finset.sum_sub_distrib]
    exact Finset.sum_congr rfl fun f _ => by ring
  have hlog : ∀ a b : ℝ, Real.log (Real.exp a + Real.exp b) = b - Real.log (Real.sigmoid (b - a)) := by
    intro a b
    have e : Real.exp a + Real.exp b = Real.exp b * (1 + Real.exp (-(b - a))) := by
      rw [mul_add, ← Real.exp_add]
      ring_nf
    rw [e, Real.log_mul (Real.exp_pos b).ne' (by positivity), Real.log_exp, Real.sigmoid_def, Real.log_inv]
    ring
  have hsym : 1 - Real.sigmoid (cscore w p.1 1 - cscore w p.1 0) = Real.sigmoid (cscore w p.1 0 - cscore w p.1 1) := by
    rw [← Real.sigmoid_neg, neg_sub]
  change Real.log (∑ c, Real.exp (cscore w p.1 c)) - cscore w p.1 p.2 = crossEntropy ((p.2.val : Nat) : ℝ) (score p.1 fun f => w f 1 - w f 0)
  rw [Fin.sum_univ_two, hs]
  unfold crossEntropy
  rw [hsym]
  obtain ⟨x, c⟩ := p
  dsimp only
  fin_cases c
  · rw [add_comm, hlog]
    simp
  · rw [hlog]
    simp

/-- Data for the theorems: two samples of classes 0 and 1. -/
example : (⟨1, [[1], [-1]]⟩ : DMat ℝ).WF ∧ ([0, 1] : List (Fin 2)).length = (⟨1, [[1], [-1]]⟩ : DMat ℝ).nrows ∧
    softmaxEvaluate 0 ⟨1, [[1], [1]]⟩ [0, 1] (toDMat fun (_ : Fin 1) (_ : Fin 2) => 0) = .ok (Real.log 2) ∧
    softmaxGradient 0 ⟨1, [[1], [1]]⟩ [0, 1] (toDMat fun (_ : Fin 1) (_ : Fin 2) => 0) = .ok (toDMat fun (_ : Fin 1) (_ : Fin 2) => 0) := by
  have hwf : (⟨1, [[1], [1]]⟩ : DMat ℝ).WF := by intro r hr; simp at hr; rw [hr]; rfl
  refine ⟨by intro r hr; simp at hr; rcases hr with rfl | rfl <;> rfl, rfl, ?_, ?_⟩
  · have := softmaxEvaluate_eq (k := 2) (by norm_num) 0 ⟨1, [[1], [1]]⟩ hwf (by simp) [0, 1] rfl (fun _ _ => 0)
    simp only [labelVec, List.map_cons, List.map_nil] at this
    norm_num at this
    rw [this]
    norm_num [classLoss, score, DMat.nrows]
  · have := softmaxGradient_eq (k := 2) (by norm_num) 0 ⟨1, [[1], [1]]⟩ hwf (by simp) [0, 1] rfl (fun _ _ => 0)
    simp only [labelVec, List.map_cons, List.map_nil] at this
    norm_num at this
    rw [this]
    congr 2
    funext f c
    fin_cases f; fin_cases c <;> norm_num [softmaxGrad, cscore, score, DMat.nrows]

end OpenML
