import Verif.Spec.LogStability
import Verif.Lemmas.LogisticMinimum
import Verif.Props.LogisticMinimum
import Mathlib.Analysis.InnerProductSpace.PiL2

/-!
# Lemmas for C167: gradients of the penalised log loss as vectors of a Euclidean space
-/

namespace OpenML.LogStability

open Spec Loss

variable {d : Nat}

/-- A sample as a vector. -/
noncomputable def feat (d : Nat) (x : List ℝ) : EuclideanSpace ℝ (Fin d) := WithLp.toLp 2 fun j => x.getD j 0

/-- A weight vector. -/
noncomputable def vec (w : Fin d → ℝ) : EuclideanSpace ℝ (Fin d) := WithLp.toLp 2 w

theorem score_inner (x : List ℝ) (w : Fin d → ℝ) : score x w = inner ℝ (feat d x) (vec w) := by
  simp [score, feat, vec, PiLp.inner_apply, mul_comm]

theorem norm_vec (w : Fin d → ℝ) : ‖vec w‖ = rowSize (List.ofFn w) := by
  rw [EuclideanSpace.norm_eq, rowSize, List.map_ofFn, List.sum_ofFn]
  simp [vec]

theorem vec_sub (v w : Fin d → ℝ) : vec v - vec w = vec (v - w) := rfl

theorem gap_norm (v w : Fin d → ℝ) : gap (List.ofFn v) (List.ofFn w) = ‖vec v - vec w‖ := by
  rw [vec_sub, norm_vec, gap, rowSize, Descent.weightDist_ofFn, List.map_ofFn, List.sum_ofFn]
  rfl

theorem norm_feat (x : List ℝ) (hx : x.length = d) : ‖feat d x‖ = rowSize x := by
  have : feat d x = vec (fun j : Fin d => x.getD j 0) := rfl
  rw [this, norm_vec]
  congr 1
  apply List.ext_getElem
  · simp [hx]
  · intro i h1 h2
    simp [List.getD_eq_getElem?_getD, List.getElem?_eq_getElem h2]

/-- The gradient for one sample. -/
noncomputable def pull (d : Nat) (p : List ℝ × ℝ) (w : EuclideanSpace ℝ (Fin d)) : EuclideanSpace ℝ (Fin d) :=
  (Real.sigmoid (inner ℝ (feat d p.1) w) - p.2) • feat d p.1

/-- The gradient of the sum of all losses and half the penalty. -/
noncomputable def force (d : Nat) (lambda : ℝ) (l : List (List ℝ × ℝ)) (w : EuclideanSpace ℝ (Fin d)) : EuclideanSpace ℝ (Fin d) :=
  (l.map fun p => pull d p w).sum + lambda • w

theorem pull_le (p : List ℝ × ℝ) (hp : ProperSample d p) (w : EuclideanSpace ℝ (Fin d)) : ‖pull d p w‖ ≤ rowSize p.1 := by
  rw [pull, norm_smul, norm_feat p.1 hp.1, Real.norm_eq_abs]
  have h0 := Real.sigmoid_pos (inner ℝ (feat d p.1) w)
  have h1 := Real.sigmoid_lt_one (inner ℝ (feat d p.1) w)
  have : |Real.sigmoid (inner ℝ (feat d p.1) w) - p.2| ≤ 1 := by
    rw [abs_le]
    constructor <;> linarith [hp.2.1, hp.2.2]
  exact mul_le_of_le_one_left (Real.sqrt_nonneg _) this

theorem pull_mono (p : List ℝ × ℝ) (v w : EuclideanSpace ℝ (Fin d)) : 0 ≤ inner ℝ (pull d p v - pull d p w) (v - w) := by
  have h : pull d p v - pull d p w = (Real.sigmoid (inner ℝ (feat d p.1) v) - Real.sigmoid (inner ℝ (feat d p.1) w)) • feat d p.1 := by
    unfold pull
    rw [← sub_smul]
    congr 1
    ring
  rw [h, real_inner_smul_left, inner_sub_right]
  rcases le_total (inner ℝ (feat d p.1) v) (inner ℝ (feat d p.1) w) with h | h
  · exact mul_nonneg_of_nonpos_of_nonpos (sub_nonpos.mpr (Real.sigmoid_monotone h)) (sub_nonpos.mpr h)
  · exact mul_nonneg (sub_nonneg.mpr (Real.sigmoid_monotone h)) (sub_nonneg.mpr h)

theorem force_mono (lambda : ℝ) (l : List (List ℝ × ℝ)) (v w : EuclideanSpace ℝ (Fin d)) :
    lambda * ‖v - w‖ ^ 2 ≤ inner ℝ (force d lambda l v - force d lambda l w) (v - w) := by
  have h1 : force d lambda l v - force d lambda l w =
      ((l.map fun p => pull d p v).sum - (l.map fun p => pull d p w).sum) + lambda • (v - w) := by
    unfold force
    rw [smul_sub]
    abel
  rw [h1, inner_add_left, real_inner_smul_left, real_inner_self_eq_norm_sq]
  have h2 : 0 ≤ inner ℝ ((l.map fun p => pull d p v).sum - (l.map fun p => pull d p w).sum) (v - w) := by
    clear h1
    induction l with
    | nil => simp
    | cons p l ih =>
      have : ((p :: l).map fun p => pull d p v).sum - ((p :: l).map fun p => pull d p w).sum =
          (pull d p v - pull d p w) + ((l.map fun p => pull d p v).sum - (l.map fun p => pull d p w).sum) := by
        simp only [List.map_cons, List.sum_cons]
        abel
      rw [this, inner_add_left]
      exact add_nonneg (pull_mono p v w) ih
  linarith

/-- Distances are bounded by differences of gradients. -/
theorem force_gap (lambda : ℝ) (l : List (List ℝ × ℝ)) (v w : EuclideanSpace ℝ (Fin d)) :
    lambda * ‖v - w‖ ≤ ‖force d lambda l v - force d lambda l w‖ := by
  have h1 := (force_mono lambda l v w).trans (real_inner_le_norm _ _)
  rcases (norm_nonneg (v - w)).eq_or_lt with h0 | h0
  · rw [← h0, mul_zero]
    exact norm_nonneg _
  · rw [sq, ← mul_assoc] at h1
    exact le_of_mul_le_mul_right h1 h0

theorem force_split (lambda : ℝ) (a b : List (List ℝ × ℝ)) (p : List ℝ × ℝ) (w : EuclideanSpace ℝ (Fin d)) :
    force d lambda (a ++ p :: b) w = force d lambda (a ++ b) w + pull d p w := by
  unfold force
  simp only [List.map_append, List.map_cons, List.sum_append, List.sum_cons]
  abel

theorem force_lambda (lambda mu : ℝ) (l : List (List ℝ × ℝ)) (w : EuclideanSpace ℝ (Fin d)) :
    force d lambda l w = force d mu l w + (lambda - mu) • w := by
  unfold force
  rw [sub_smul]
  abel

theorem featuresOf_wf {l : List (List ℝ × ℝ)} (h : ∀ p ∈ l, ProperSample d p) : (featuresOf d l).WF := by
  intro r hr
  obtain ⟨p, hp, rfl⟩ := List.mem_map.mp hr
  exact (h p hp).1

theorem labelsOf_length (l : List (List ℝ × ℝ)) : (labelsOf l).length = (featuresOf d l).nrows := by
  simp [labelsOf, featuresOf, DMat.nrows]

theorem zip_of (l : List (List ℝ × ℝ)) : (featuresOf d l).rows.zip (labelsOf l) = l := by
  unfold featuresOf labelsOf
  induction l with
  | nil => rfl
  | cons p l ih => simp [ih]

theorem force_gradOf (lambda : ℝ) (l : List (List ℝ × ℝ)) (hl : l ≠ []) (w : Fin d → ℝ) :
    force d lambda l (vec w) = (l.length : ℝ) • vec (gradOf (fun a s => Real.sigmoid s - a) lambda l w) := by
  have hn : (l.length : ℝ) ≠ 0 := by exact_mod_cast (List.length_pos_of_ne_nil hl).ne'
  ext j
  have h1 : ∀ l : List (List ℝ × ℝ), (l.map fun p => pull d p (vec w)).sum j =
      (l.map fun p => (Real.sigmoid (score p.1 w) - p.2) * p.1.getD j 0).sum := by
    intro l
    induction l with
    | nil => rfl
    | cons p l ih =>
      simp only [List.map_cons, List.sum_cons, PiLp.add_apply, ih]
      congr 1
      rw [score_inner]
      rfl
  simp only [force, PiLp.add_apply, PiLp.smul_apply, h1, smul_eq_mul]
  simp only [vec, gradOf]
  field_simp

/-- What `gradient` returns, as a vector. -/
theorem gradient_ok (lambda : ℝ) (l : List (List ℝ × ℝ)) (h : ∀ p ∈ l, ProperSample d p) (hl : l ≠ []) (v g : List ℝ)
    (hg : logGradient lambda (featuresOf d l) (labelsOf l) v = .ok g) :
    ∃ w : Fin d → ℝ, v = List.ofFn w ∧ ‖force d lambda l (vec w)‖ = l.length * rowSize g := by
  obtain ⟨w, hw⟩ := exists_ofFn (n := d) v (evaluate_length hg)
  have h1 := logGradient_eq lambda (featuresOf d l) (featuresOf_wf h) (labelsOf l) (labelsOf_length l) w
  rw [zip_of] at h1
  have h2 : g = List.ofFn (gradOf (fun a s => Real.sigmoid s - a) lambda l w) := by
    rw [hw] at hg
    exact Res.ok.inj (hg.symm.trans h1)
  refine ⟨w, hw.symm ▸ rfl, ?_⟩
  rw [force_gradOf lambda l hl w, norm_smul, norm_vec, ← h2]
  simp

/-- What `evaluate` returns. -/
theorem evaluate_ok (lambda : ℝ) (l : List (List ℝ × ℝ)) (h : ∀ p ∈ l, ProperSample d p) (w : Fin d → ℝ) :
    logEvaluate lambda (featuresOf d l) (labelsOf l) (List.ofFn w) =
      .ok (meanLoss crossEntropy l w + lambda * ridgeTerm l.length w) := by
  have h1 := logEvaluate_eq lambda (featuresOf d l) (featuresOf_wf h) (labelsOf l) (labelsOf_length l) w
  rw [zip_of] at h1
  rw [show (featuresOf d l).nrows = l.length by simp [featuresOf, DMat.nrows]] at h1
  exact h1

theorem minimum_ok (lambda : ℝ) (l : List (List ℝ × ℝ)) (h : ∀ p ∈ l, ProperSample d p) (v : List ℝ) (m : ℝ)
    (hv : Minimises (logEvaluate lambda (featuresOf d l) (labelsOf l)) v m) :
    ∃ w : Fin d → ℝ, v = List.ofFn w ∧ m = meanLoss crossEntropy l w + lambda * ridgeTerm l.length w ∧
      ∀ u : Fin d → ℝ, m ≤ meanLoss crossEntropy l u + lambda * ridgeTerm l.length u := by
  obtain ⟨h1, h2⟩ := hv
  obtain ⟨w, hw⟩ := exists_ofFn (n := d) v (evaluate_length h1)
  refine ⟨w, hw, ?_, fun u => h2 _ _ (evaluate_ok lambda l h u)⟩
  rw [hw, evaluate_ok lambda l h w] at h1
  exact (Res.ok.inj h1).symm

/-- The gradient vanishes at a minimum. -/
theorem minimum_force (lambda : ℝ) (l : List (List ℝ × ℝ)) (h : ∀ p ∈ l, ProperSample d p) (hl : l ≠ []) (v : List ℝ) (m : ℝ)
    (hv : Minimises (logEvaluate lambda (featuresOf d l) (labelsOf l)) v m) :
    ∃ w : Fin d → ℝ, v = List.ofFn w ∧ force d lambda l (vec w) = 0 := by
  obtain ⟨w, hw, rfl, hmin⟩ := minimum_ok lambda l h v m hv
  refine ⟨w, hw, ?_⟩
  have h1 : gradOf (fun a s => Real.sigmoid s - a) lambda l w = 0 :=
    funext fun j => LogisticMinimum.gradient_zero crossEntropy _ crossEntropy_deriv lambda l w hmin j
  rw [force_gradOf lambda l hl w, h1]
  have : vec (0 : Fin d → ℝ) = 0 := rfl
  rw [this, smul_zero]

end OpenML.LogStability
