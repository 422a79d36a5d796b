import Verif.Spec.SoftmaxMinimum
import Verif.Lemmas.SoftmaxDescent
import Verif.Lemmas.LogStability
import Verif.Lemmas.LogisticMinimum

/-!
# Lemmas for C173: the penalised softmax loss as a strongly convex function on a Euclidean space
-/

namespace OpenML.SoftmaxMinimum

open Spec Loss Softmax Descent
open scoped BigOperators

variable {d k : Nat}

/-- A matrix of weights as a vector. -/
noncomputable def mvec (v : Fin d × Fin k → ℝ) : EuclideanSpace ℝ (Fin d × Fin k) := WithLp.toLp 2 v

theorem mvec_inner (v w : Fin d × Fin k → ℝ) : inner ℝ (mvec v) (mvec w) = ∑ j, v j * w j := by
  simp [mvec, PiLp.inner_apply, mul_comm]

theorem mvec_sub (v w : Fin d × Fin k → ℝ) : mvec v - mvec w = mvec (v - w) := rfl

theorem norm_mvec_sq (v : Fin d × Fin k → ℝ) : ‖mvec v‖ ^ 2 = ∑ j, v j ^ 2 := by
  rw [EuclideanSpace.real_norm_sq_eq]
  rfl

theorem norm_mvec (v : Fin d × Fin k → ℝ) : ‖mvec v‖ = matrixSize (toDMat (curried v)) := by
  rw [matrixSize, matrixMass_toDMat, ← norm_mvec_sq, Real.sqrt_sq (norm_nonneg _)]

theorem matrixGap_norm (v w : Fin d × Fin k → ℝ) : matrixGap (toDMat (curried v)) (toDMat (curried w)) = ‖mvec v - mvec w‖ := by
  rw [matrixGap, matrixDist_toDMat, mvec_sub]
  have := norm_mvec_sq (v - w)
  simp only [Pi.sub_apply] at this
  rw [← this, Real.sqrt_sq (norm_nonneg _)]

/-- The probability of a class minus the indicator of the label. -/
noncomputable def excess (v : Fin d × Fin k → ℝ) (p : List ℝ × Fin k) (c : Fin k) : ℝ :=
  Real.exp (cscore (curried v) p.1 c) / (∑ b, Real.exp (cscore (curried v) p.1 b)) - if c = p.2 then 1 else 0

/-- The gradient for one sample. -/
noncomputable def push (v : Fin d × Fin k → ℝ) (p : List ℝ × Fin k) : EuclideanSpace ℝ (Fin d × Fin k) :=
  mvec fun j => excess v p j.2 * p.1.getD j.1 0

theorem excess_sum (v : Fin d × Fin k → ℝ) (p : List ℝ × Fin k) : ∑ c, excess v p c = 0 := by
  have hpos : 0 < ∑ b, Real.exp (cscore (curried v) p.1 b) := Finset.sum_pos (fun c _ => Real.exp_pos _) ⟨p.2, Finset.mem_univ _⟩
  unfold excess
  rw [Finset.sum_sub_distrib, ← Finset.sum_div, div_self hpos.ne', Finset.sum_ite_eq' Finset.univ p.2, if_pos (Finset.mem_univ _), sub_self]

theorem excess_sq (v : Fin d × Fin k → ℝ) (p : List ℝ × Fin k) : ∑ c, excess v p c ^ 2 ≤ 2 := by
  have hpos : 0 < ∑ b, Real.exp (cscore (curried v) p.1 b) := Finset.sum_pos (fun c _ => Real.exp_pos _) ⟨p.2, Finset.mem_univ _⟩
  set π : Fin k → ℝ := fun c => Real.exp (cscore (curried v) p.1 c) / (∑ b, Real.exp (cscore (curried v) p.1 b)) with hπ
  have h0 : ∀ c, 0 ≤ π c := fun c => div_nonneg (Real.exp_pos _).le hpos.le
  have h1 : ∑ c, π c = 1 := by rw [← Finset.sum_div, div_self hpos.ne']
  have h2 : ∀ c, π c ≤ 1 := fun c => by
    rw [← h1]
    exact Finset.single_le_sum (f := π) (fun c _ => h0 c) (Finset.mem_univ c)
  have h3 : ∀ c, excess v p c ^ 2 ≤ π c + if c = p.2 then 1 else 0 := by
    intro c
    have e : excess v p c = π c - if c = p.2 then 1 else 0 := rfl
    rw [e]
    have := h0 c
    have := h2 c
    split <;> nlinarith
  refine (Finset.sum_le_sum fun c _ => h3 c).trans_eq ?_
  rw [Finset.sum_add_distrib, h1, Finset.sum_ite_eq' Finset.univ p.2, if_pos (Finset.mem_univ _)]
  norm_num

theorem push_le (v : Fin d × Fin k → ℝ) (p : List ℝ × Fin k) (hp : p.1.length = d) : ‖push v p‖ ≤ Real.sqrt 2 * rowSize p.1 := by
  have hx : (p.1.map fun a => a ^ 2).sum = ∑ f : Fin d, p.1.getD f 0 ^ 2 := by
    subst hp
    conv_lhs => rw [← List.ofFn_get p.1]
    rw [List.map_ofFn, List.sum_ofFn]
    exact Finset.sum_congr rfl fun f _ => by simp
  have h0 : 0 ≤ (p.1.map fun a => a ^ 2).sum := by
    rw [hx]
    exact Finset.sum_nonneg fun f _ => sq_nonneg _
  have h1 : ‖push v p‖ ^ 2 ≤ 2 * (p.1.map fun a => a ^ 2).sum := by
    rw [push, norm_mvec_sq, Fintype.sum_prod_type]
    have e : ∑ f : Fin d, ∑ c : Fin k, (excess v p c * p.1.getD f 0) ^ 2 = (∑ c, excess v p c ^ 2) * (p.1.map fun a => a ^ 2).sum := by
      rw [hx, Finset.sum_mul_sum, Finset.sum_comm]
      exact Finset.sum_congr rfl fun c _ => Finset.sum_congr rfl fun f _ => by ring
    exact e.trans_le (mul_le_mul_of_nonneg_right (excess_sq v p) h0)
  rw [rowSize, ← Real.sqrt_mul (by norm_num)]
  exact Real.le_sqrt_of_sq_le h1

/-- The gradient of the sum of all losses and half the penalty. -/
noncomputable def total (lambda : ℝ) (l : List (List ℝ × Fin k)) (v : Fin d × Fin k → ℝ) : EuclideanSpace ℝ (Fin d × Fin k) :=
  (l.map (push v)).sum + lambda • mvec v

theorem total_softGrad (lambda : ℝ) (l : List (List ℝ × Fin k)) (hl : l ≠ []) (v : Fin d × Fin k → ℝ) :
    total lambda l v = (l.length : ℝ) • mvec (softGrad lambda l v) := by
  have hn : (l.length : ℝ) ≠ 0 := by exact_mod_cast (List.length_pos_of_ne_nil hl).ne'
  ext j
  have h1 : ∀ l : List (List ℝ × Fin k), (l.map (push v)).sum j = (l.map fun p => excess v p j.2 * p.1.getD j.1 0).sum := by
    intro l
    induction l with
    | nil => rfl
    | cons p l ih =>
      simp only [List.map_cons, List.sum_cons, PiLp.add_apply, ih]
      rfl
  simp only [total, PiLp.add_apply, PiLp.smul_apply, h1, smul_eq_mul]
  simp only [mvec, softGrad, softmaxGrad]
  have e : curried v j.1 j.2 = v j := rfl
  rw [e]
  unfold excess
  field_simp

theorem strong (lambda : ℝ) (l : List (List ℝ × Fin k)) (hl : l ≠ []) (hd : ∀ p ∈ l, p.1.length = d) (v w : Fin d × Fin k → ℝ) :
    softObjective lambda l w + ∑ j, softGrad lambda l w j * (v j - w j) + lambda / (2 * l.length) * ∑ j, (v j - w j) ^ 2 ≤
      softObjective lambda l v := by
  have hne : l.length ≠ 0 := (List.length_pos_of_ne_nil hl).ne'
  have hn : (0 : ℝ) < l.length := by exact_mod_cast Nat.pos_of_ne_zero hne
  have h0 := (soft_smooth 0 le_rfl l hne hd).lower w v
  have e1 : ∀ u : Fin d × Fin k → ℝ, softObjective lambda l u = softObjective 0 l u + lambda * ((∑ j, u j ^ 2) / (2 * l.length)) := by
    intro u
    unfold softObjective
    ring
  have e2 : ∑ j, softGrad lambda l w j * (v j - w j) = ∑ j, softGrad 0 l w j * (v j - w j) + lambda / l.length * ∑ j, w j * (v j - w j) := by
    rw [Finset.mul_sum, ← Finset.sum_add_distrib]
    refine Finset.sum_congr rfl fun j _ => ?_
    have : curried w j.1 j.2 = w j := rfl
    simp only [softGrad, softmaxGrad, this]
    ring
  have e3 : ∑ j, v j ^ 2 = ∑ j, w j ^ 2 + 2 * ∑ j, w j * (v j - w j) + ∑ j, (v j - w j) ^ 2 := by
    rw [Finset.mul_sum, ← Finset.sum_add_distrib, ← Finset.sum_add_distrib]
    exact Finset.sum_congr rfl fun j _ => by ring
  rw [e1 v, e1 w, e2, e3]
  have e4 : lambda * ((∑ j, w j ^ 2 + 2 * ∑ j, w j * (v j - w j) + ∑ j, (v j - w j) ^ 2) / (2 * l.length)) =
      lambda * ((∑ j, w j ^ 2) / (2 * l.length)) + lambda / l.length * ∑ j, w j * (v j - w j) +
        lambda / (2 * l.length) * ∑ j, (v j - w j) ^ 2 := by
    field_simp
  rw [e4]
  linarith

theorem total_mono (lambda : ℝ) (l : List (List ℝ × Fin k)) (hl : l ≠ []) (hd : ∀ p ∈ l, p.1.length = d) (v w : Fin d × Fin k → ℝ) :
    lambda * ‖mvec v - mvec w‖ ^ 2 ≤ inner ℝ (total lambda l v - total lambda l w) (mvec v - mvec w) := by
  have hn : (0 : ℝ) < l.length := by exact_mod_cast List.length_pos_of_ne_nil hl
  have h1 := strong lambda l hl hd v w
  have h2 := strong lambda l hl hd w v
  have e1 : ∑ j, softGrad lambda l v j * (w j - v j) = -∑ j, softGrad lambda l v j * (v j - w j) := by
    rw [← Finset.sum_neg_distrib]
    exact Finset.sum_congr rfl fun j _ => by ring
  have e2 : ∑ j, (w j - v j) ^ 2 = ∑ j, (v j - w j) ^ 2 := Finset.sum_congr rfl fun j _ => by ring
  rw [e1, e2] at h2
  have e3 : inner ℝ (total lambda l v - total lambda l w) (mvec v - mvec w) =
      l.length * (∑ j, softGrad lambda l v j * (v j - w j) - ∑ j, softGrad lambda l w j * (v j - w j)) := by
    rw [total_softGrad lambda l hl, total_softGrad lambda l hl, ← smul_sub, mvec_sub, mvec_sub, real_inner_smul_left, mvec_inner,
      ← Finset.sum_sub_distrib]
    congr 1
    exact Finset.sum_congr rfl fun j _ => by simp only [Pi.sub_apply]; ring
  have e4 : ‖mvec v - mvec w‖ ^ 2 = ∑ j, (v j - w j) ^ 2 := by
    rw [mvec_sub, norm_mvec_sq]
    rfl
  rw [e3, e4]
  have h3 : lambda / l.length * ∑ j, (v j - w j) ^ 2 ≤
      ∑ j, softGrad lambda l v j * (v j - w j) - ∑ j, softGrad lambda l w j * (v j - w j) := by
    have : lambda / l.length * ∑ j, (v j - w j) ^ 2 = 2 * (lambda / (2 * l.length) * ∑ j, (v j - w j) ^ 2) := by
      field_simp
    linarith
  have h4 := mul_le_mul_of_nonneg_left h3 hn.le
  have e5 : (l.length : ℝ) * (lambda / l.length * ∑ j, (v j - w j) ^ 2) = lambda * ∑ j, (v j - w j) ^ 2 := by
    field_simp
  linarith

theorem total_gap (lambda : ℝ) (l : List (List ℝ × Fin k)) (hl : l ≠ []) (hd : ∀ p ∈ l, p.1.length = d) (v w : Fin d × Fin k → ℝ) :
    lambda * ‖mvec v - mvec w‖ ≤ ‖total lambda l v - total lambda l w‖ := by
  have h1 := (total_mono lambda l hl hd v w).trans (real_inner_le_norm _ _)
  rcases (norm_nonneg (mvec v - mvec w)).eq_or_lt with h0 | h0
  · rw [← h0, mul_zero]
    exact norm_nonneg _
  · rw [sq, ← mul_assoc] at h1
    exact le_of_mul_le_mul_right h1 h0

/-- Sums over the classes. -/
theorem grad_rows (lambda : ℝ) (l : List (List ℝ × Fin k)) (v : Fin d × Fin k → ℝ) (f : Fin d) :
    ∑ c, softGrad lambda l v (f, c) = lambda / l.length * ∑ c, v (f, c) := by
  have h : ∀ l : List (List ℝ × Fin k), ∑ c, (l.map fun p => excess v p c * p.1.getD f 0).sum = 0 := by
    intro l
    induction l with
    | nil => simp
    | cons p l ih =>
      simp only [List.map_cons, List.sum_cons]
      rw [Finset.sum_add_distrib, ih, ← Finset.sum_mul, excess_sum, zero_mul, add_zero]
  have e : ∀ c, softGrad lambda l v (f, c) = (l.map fun p => excess v p c * p.1.getD f 0).sum / l.length + lambda / l.length * v (f, c) := by
    intro c
    unfold softGrad softmaxGrad excess curried
    ring
  simp only [e]
  rw [Finset.sum_add_distrib, ← Finset.sum_div, h, zero_div, zero_add, Finset.mul_sum]

theorem continuous_cscore (x : List ℝ) (c : Fin k) : Continuous fun v : Fin d × Fin k → ℝ => cscore (curried v) x c := by
  unfold cscore score curried
  fun_prop

theorem continuous_soft (lambda : ℝ) (l : List (List ℝ × Fin k)) : Continuous (softObjective (d := d) lambda l) := by
  have h1 : ∀ p : List ℝ × Fin k, Continuous fun v : Fin d × Fin k → ℝ => classLoss (curried v) p := by
    intro p
    have e : (fun v : Fin d × Fin k → ℝ => classLoss (curried v) p) =
        fun v => Real.log (∑ c, Real.exp (cscore (curried v) p.1 c)) - cscore (curried v) p.1 p.2 := rfl
    rw [e]
    refine Continuous.sub (Continuous.log (continuous_finset_sum _ fun c _ => Real.continuous_exp.comp (continuous_cscore p.1 c)) fun v => ?_)
      (continuous_cscore p.1 p.2)
    exact (Finset.sum_pos (fun c _ => Real.exp_pos _) ⟨p.2, Finset.mem_univ _⟩).ne'
  have h2 : Continuous fun v : Fin d × Fin k → ℝ => (l.map (classLoss (curried v))).sum := by
    induction l with
    | nil => simpa using continuous_const
    | cons p l ih =>
      simp only [List.map_cons, List.sum_cons]
      exact (h1 p).add ih
  unfold softObjective
  fun_prop

/-- Weights with gradient zero. -/
theorem exists_zero (lambda : ℝ) (hlam : 0 < lambda) (l : List (List ℝ × Fin k)) (hl : l ≠ []) (hd : ∀ p ∈ l, p.1.length = d) :
    ∃ w : Fin d × Fin k → ℝ, ∀ j, softGrad lambda l w j = 0 := by
  have hne : l.length ≠ 0 := (List.length_pos_of_ne_nil hl).ne'
  have hn : (0 : ℝ) < l.length := by exact_mod_cast Nat.pos_of_ne_zero hne
  obtain ⟨w, hw⟩ : ∃ w : Fin d × Fin k → ℝ, ∀ v, softObjective lambda l w ≤ softObjective lambda l v := by
    let e : Fin d × Fin k ≃ Fin (d * k) := finProdFinEquiv
    obtain ⟨w, hw⟩ := LogisticMinimum.exists_min_strong (fun u : Fin (d * k) → ℝ => softObjective (d := d) lambda l (fun j => u (e j)))
      ((continuous_soft lambda l).comp (by fun_prop)) (fun i => softGrad lambda l 0 (e.symm i)) (lambda / (2 * l.length)) (by positivity)
      (fun u => by
        have h1 := strong lambda l hl hd (fun j => u (e j)) 0
        simp only [Pi.zero_apply, sub_zero] at h1
        have e1 : ∑ i, softGrad lambda l 0 (e.symm i) * u i = ∑ j, softGrad lambda l 0 j * u (e j) := by
          rw [← e.sum_comp]
          simp
        have e2 : ∑ i, u i ^ 2 = ∑ j, u (e j) ^ 2 := (e.sum_comp fun i => u i ^ 2).symm
        rw [e1, e2]
        exact h1)
    refine ⟨fun j => w (e j), fun v => ?_⟩
    have := hw fun i => v (e.symm i)
    simpa using this
  refine ⟨w, fun j => ?_⟩
  have hL : 0 < steepness (1 / 2) lambda (l.map Prod.fst) := by
    have : 0 ≤ featureMass (l.map Prod.fst) := by
      unfold featureMass
      refine List.sum_nonneg fun a ha => ?_
      obtain ⟨r, _, rfl⟩ := List.mem_map.mp ha
      refine List.sum_nonneg fun b hb => ?_
      obtain ⟨s, _, rfl⟩ := List.mem_map.mp hb
      exact sq_nonneg s
    unfold steepness
    rw [List.length_map]
    positivity
  generalize hLe : steepness (1 / 2) lambda (l.map Prod.fst) = L at hL
  have hup := (soft_smooth lambda hlam.le l hne hd).upper w (fun j => w j - 1 / L * softGrad lambda l w j)
  have hmin := hw fun j => w j - 1 / L * softGrad lambda l w j
  rw [hLe] at hup
  have e1 : ∑ j, softGrad lambda l w j * (w j - 1 / L * softGrad lambda l w j - w j) = -(1 / L * ∑ j, softGrad lambda l w j ^ 2) := by
    rw [Finset.mul_sum, ← Finset.sum_neg_distrib]
    exact Finset.sum_congr rfl fun j _ => by ring
  have e2 : ∑ j, (w j - 1 / L * softGrad lambda l w j - w j) ^ 2 = 1 / L ^ 2 * ∑ j, softGrad lambda l w j ^ 2 := by
    rw [Finset.mul_sum]
    exact Finset.sum_congr rfl fun j _ => by ring
  rw [e1, e2] at hup
  have h3 : 1 / L * ∑ j, softGrad lambda l w j ^ 2 ≤ L / 2 * (1 / L ^ 2 * ∑ j, softGrad lambda l w j ^ 2) := by linarith
  have e3 : L / 2 * (1 / L ^ 2 * ∑ j, softGrad lambda l w j ^ 2) = 1 / 2 * (1 / L * ∑ j, softGrad lambda l w j ^ 2) := by
    field_simp
  have h4 : 1 / L * ∑ j, softGrad lambda l w j ^ 2 ≤ 0 := by linarith
  have h5 : ∑ j, softGrad lambda l w j ^ 2 ≤ 0 := nonpos_of_mul_nonpos_right h4 (by positivity)
  have h6 := Finset.single_le_sum (f := fun j => softGrad lambda l w j ^ 2) (fun j _ => sq_nonneg _) (Finset.mem_univ j)
  exact pow_eq_zero_iff (two_ne_zero) |>.mp (le_antisymm (h6.trans h5) (sq_nonneg _))

/-- How much the loss of a sample depends on the weights. -/
theorem classLoss_gap (v w : Fin d × Fin k → ℝ) (p : List ℝ × Fin k) (hp : p.1.length = d) :
    |classLoss (curried v) p - classLoss (curried w) p| ≤ Real.sqrt 2 * rowSize p.1 * ‖mvec v - mvec w‖ := by
  have key : ∀ v w : Fin d × Fin k → ℝ, classLoss (curried w) p - classLoss (curried v) p ≤ Real.sqrt 2 * rowSize p.1 * ‖mvec v - mvec w‖ := by
    intro v w
    have h1 := classLoss_tangent (curried v) (curried w) p
    have h2 := soft_linear [p] 1 v w
    have e : inner ℝ (push w p) (mvec w - mvec v) = -∑ j, softmaxGrad 0 [p] 1 (curried w) j.1 j.2 * (v j - w j) := by
      rw [push, mvec_sub, mvec_inner, ← Finset.sum_neg_distrib]
      refine Finset.sum_congr rfl fun j _ => ?_
      unfold excess softmaxGrad
      simp only [List.map_cons, List.map_nil, List.sum_cons, List.sum_nil, Pi.sub_apply]
      push_cast
      ring
    simp only [List.map_cons, List.map_nil, List.sum_cons, List.sum_nil, Nat.cast_one, add_zero, div_one] at h2
    have h3 := real_inner_le_norm (push w p) (mvec w - mvec v)
    rw [e, h2, norm_sub_rev] at h3
    have h4 := mul_le_mul_of_nonneg_right (push_le w p hp) (norm_nonneg (mvec v - mvec w))
    linarith
  rw [abs_le]
  have h1 := key v w
  have h2 := key w v
  rw [norm_sub_rev] at h2
  constructor <;> linarith

/-- A sample with the number of its class. -/
def named (p : List ℝ × Fin k) : List ℝ × ℝ := (p.1, ((p.2.val : Nat) : ℝ))

theorem named_injective : Function.Injective (named (k := k)) := by
  rintro ⟨a, b⟩ ⟨a', b'⟩ hab
  simp only [named, Prod.mk.injEq, Nat.cast_inj] at hab
  exact Prod.ext hab.1 (Fin.ext hab.2)

theorem exists_named (l : List (List ℝ × ℝ)) (h : ∀ p ∈ l, ClassSample d k p) :
    ∃ s : List (List ℝ × Fin k), l = s.map named ∧ ∀ p ∈ s, p.1.length = d := by
  induction l with
  | nil => exact ⟨[], rfl, by simp⟩
  | cons q l ih =>
    obtain ⟨s, hs, hd⟩ := ih fun p hp => h p (List.mem_cons_of_mem _ hp)
    obtain ⟨h1, c, hc⟩ := h q List.mem_cons_self
    refine ⟨(q.1, c) :: s, ?_, ?_⟩
    · rw [List.map_cons, ← hs, named, ← hc]
    · intro p hp
      rcases List.mem_cons.mp hp with rfl | hp
      · exact h1
      · exact hd p hp

theorem labels_named (s : List (List ℝ × Fin k)) : labelsOf (s.map named) = labelVec (s.map Prod.snd) := by
  unfold labelsOf labelVec
  rw [List.map_map, List.map_map]
  rfl

theorem rows_named (s : List (List ℝ × Fin k)) : (featuresOf d (s.map named)).rows = s.map Prod.fst := by
  unfold featuresOf
  rw [List.map_map]
  rfl

theorem wf_named (s : List (List ℝ × Fin k)) (hd : ∀ p ∈ s, p.1.length = d) : (featuresOf d (s.map named)).WF := by
  intro r hr
  rw [rows_named] at hr
  obtain ⟨p, hp, rfl⟩ := List.mem_map.mp hr
  exact hd p hp

theorem class_pos (s : List (List ℝ × Fin k)) (hs : s ≠ []) : 0 < k := by
  obtain ⟨p, t, rfl⟩ := List.exists_cons_of_ne_nil hs
  exact lt_of_le_of_lt (Nat.zero_le _) p.2.isLt

theorem zip_named (s : List (List ℝ × Fin k)) : (s.map Prod.fst).zip (s.map Prod.snd) = s := by
  rw [List.zip_map']
  simp

theorem gradient_named (lambda : ℝ) (s : List (List ℝ × Fin k)) (hs : s ≠ []) (hd : ∀ p ∈ s, p.1.length = d) (v : Fin d × Fin k → ℝ) :
    softmaxGradient lambda (featuresOf d (s.map named)) (labelsOf (s.map named)) (toDMat (curried v)) =
      .ok (toDMat (curried (softGrad lambda s v))) := by
  have h := gradient_softGrad (class_pos s hs) lambda (featuresOf d (s.map named)) (wf_named s hd) (by rw [rows_named]; simpa using hs)
    (s.map Prod.snd) (by simp [DMat.nrows, rows_named]) v
  rw [rows_named, zip_named] at h
  rw [labels_named]
  exact h

theorem evaluate_named (lambda : ℝ) (s : List (List ℝ × Fin k)) (hs : s ≠ []) (hd : ∀ p ∈ s, p.1.length = d) (v : Fin d × Fin k → ℝ) :
    softmaxEvaluate lambda (featuresOf d (s.map named)) (labelsOf (s.map named)) (toDMat (curried v)) = .ok (evalOf lambda s v) := by
  have h := evaluate_evalOf (class_pos s hs) lambda (featuresOf d (s.map named)) (wf_named s hd) (by rw [rows_named]; simpa using hs)
    (s.map Prod.snd) (by simp [DMat.nrows, rows_named]) v
  rw [rows_named, zip_named] at h
  rw [labels_named]
  exact h

theorem rows_sum (v : Fin d × Fin k → ℝ) : (toDMat (curried v)).rows.map List.sum = List.ofFn fun f => ∑ c, v (f, c) := by
  unfold toDMat curried
  rw [List.map_ofFn]
  refine congrArg List.ofFn (funext fun f => ?_)
  simp [List.sum_ofFn]

theorem zeroMat_eq : zeroMat d k = toDMat (curried fun _ : Fin d × Fin k => (0 : ℝ)) := by
  unfold zeroMat toDMat curried
  simp [List.ofFn_const]

theorem toDMat_injective {v w : Fin d × Fin k → ℝ} (h : toDMat (curried v) = toDMat (curried w)) : v = w := by
  have h1 := matrixDist_toDMat v w
  rw [h, matrixDist_toDMat] at h1
  simp only [sub_self, zero_pow two_ne_zero, Finset.sum_const_zero] at h1
  funext j
  have := (Finset.sum_eq_zero_iff_of_nonneg fun j _ => sq_nonneg (v j - w j)).mp h1.symm j (Finset.mem_univ j)
  exact sub_eq_zero.mp (pow_eq_zero_iff two_ne_zero |>.mp this)

/-- How much the sums of gradients of two training sets differ. -/
theorem sums_gap (v : Fin d × Fin k → ℝ) (s s' : List (List ℝ × Fin k)) (hlen : s.length = s'.length) (hd : ∀ p ∈ s, p.1.length = d)
    (hd' : ∀ p ∈ s', p.1.length = d) :
    ‖(s.map (push v)).sum - (s'.map (push v)).sum‖ ≤ Real.sqrt 2 * changed (s.map named) (s'.map named) := by
  induction s generalizing s' with
  | nil =>
    obtain rfl : s' = [] := List.eq_nil_of_length_eq_zero hlen.symm
    simp [changed]
  | cons p s ih =>
    obtain ⟨p', s', rfl⟩ : ∃ p' t, s' = p' :: t := by
      cases s' with
      | nil => cases hlen
      | cons a b => exact ⟨a, b, rfl⟩
    have h1 := ih s' (Nat.succ.inj hlen) (fun q hq => hd q (List.mem_cons_of_mem _ hq)) fun q hq => hd' q (List.mem_cons_of_mem _ hq)
    have h2 : ‖push v p - push v p'‖ ≤ Real.sqrt 2 * (if named p = named p' then 0 else rowSize (named p).1 + rowSize (named p').1) := by
      split
      · rename_i e
        rw [named_injective e]
        simp
      · refine (norm_sub_le _ _).trans ?_
        rw [mul_add]
        exact add_le_add (push_le v p (hd p List.mem_cons_self)) (push_le v p' (hd' p' List.mem_cons_self))
    have e : changed ((p :: s).map named) ((p' :: s').map named) =
        (if named p = named p' then 0 else rowSize (named p).1 + rowSize (named p').1) + changed (s.map named) (s'.map named) := by
      unfold changed
      simp only [List.map_cons, List.zip_cons_cons, List.sum_cons]
    rw [e, mul_add]
    simp only [List.map_cons, List.sum_cons]
    rw [add_sub_add_comm]
    exact (norm_add_le _ _).trans (add_le_add h2 h1)

end OpenML.SoftmaxMinimum
