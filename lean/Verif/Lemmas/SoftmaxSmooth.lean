import Verif.Lemmas.Descent
import Verif.Props.Softmax
import Mathlib.Analysis.Convex.SpecificFunctions.Basic

/-!
# Smoothness of the softmax loss
-/

namespace OpenML.Softmax

open Spec Loss Descent
open scoped BigOperators

/-- Hoeffding's bound for two points. -/
theorem two_point (q D : ℝ) (h0 : 0 < q) (h1 : q < 1) : Real.log (1 - q + q * Real.exp D) ≤ q * D + D ^ 2 / 8 := by
  have h1q : 0 < 1 - q := by linarith
  have hsig : ∀ E : ℝ, 1 - Real.sigmoid (Real.log (q / (1 - q)) + E) = (1 - q) / (1 - q + q * Real.exp E) := by
    intro E
    have hpos : 0 < 1 - q + q * Real.exp E := by positivity
    have he : Real.exp (-(Real.log (q / (1 - q)) + E)) = (1 - q) / q * (Real.exp E)⁻¹ := by
      rw [neg_add, Real.exp_add, Real.exp_neg, Real.exp_log (div_pos h0 h1q), inv_div, Real.exp_neg]
    have hE := Real.exp_pos E
    rw [Real.sigmoid_def, he]
    have h3 : (1 + (1 - q) / q * (Real.exp E)⁻¹) ≠ 0 := by positivity
    field_simp
    ring
  have hx : Real.sigmoid (Real.log (q / (1 - q))) = q := by
    have := hsig 0
    rw [add_zero, Real.exp_zero, mul_one, sub_add_cancel, div_one] at this
    linarith
  have hu := crossEntropy_upper 0 (Real.log (q / (1 - q))) (Real.log (q / (1 - q)) + D)
  have hpos : 0 < 1 - q + q * Real.exp D := by positivity
  simp only [crossEntropy, zero_mul, zero_add, sub_zero, one_mul, hsig D, hx, add_sub_cancel_left] at hu
  rw [Real.log_div h1q.ne' hpos.ne'] at hu
  linarith

variable {d k : Nat}

/-- Hoeffding's lemma for finitely many positive probabilities, with the range bounded by the sum of squares. -/
theorem hoeffding (p h : Fin k → ℝ) (hp : ∀ c, 0 < p c) (hs : ∑ c, p c = 1) :
    Real.log (∑ c, p c * Real.exp (h c)) ≤ ∑ c, p c * h c + 1 / 4 * ∑ c, h c ^ 2 := by
  have hne : (Finset.univ : Finset (Fin k)).Nonempty := by
    rw [Finset.univ_nonempty_iff]
    by_contra hc
    rw [not_nonempty_iff] at hc
    simp at hs
  obtain ⟨i, _, hi⟩ := Finset.exists_min_image Finset.univ h hne
  obtain ⟨j, _, hj⟩ := Finset.exists_max_image Finset.univ h hne
  have hsq : 0 ≤ ∑ c, h c ^ 2 := Finset.sum_nonneg fun c _ => sq_nonneg _
  rcases (hi j (Finset.mem_univ j)).eq_or_lt with he | hlt
  · have hall : ∀ c, h c = h i := fun c => le_antisymm (by rw [he]; exact hj c (Finset.mem_univ c)) (hi c (Finset.mem_univ c))
    simp only [hall, ← Finset.sum_mul, hs, one_mul, Real.log_exp]
    have : 0 ≤ ∑ _ : Fin k, h i ^ 2 := Finset.sum_nonneg fun c _ => sq_nonneg _
    linarith
  · set D := h j - h i with hD
    have hDpos : 0 < D := by linarith
    have hij : i ≠ j := by rintro rfl; exact lt_irrefl _ hlt
    set lam : Fin k → ℝ := fun c => (h c - h i) / D with hlam
    have hl0 : ∀ c, 0 ≤ lam c := fun c => div_nonneg (by linarith [hi c (Finset.mem_univ c)]) hDpos.le
    have hl1 : ∀ c, lam c ≤ 1 := fun c => by
      rw [hlam]
      dsimp only
      rw [div_le_one hDpos]
      linarith [hj c (Finset.mem_univ c)]
    have hli : lam i = 0 := by simp [hlam]
    have hlj : lam j = 1 := by
      simp only [hlam]
      exact div_self hDpos.ne'
    have hlc : ∀ c, h c = h i + lam c * D := fun c => by
      simp only [hlam]
      field_simp
      ring
    set q := ∑ c, p c * lam c with hq
    have hq0 : 0 < q := by
      refine lt_of_lt_of_le (hp j) ?_
      have := Finset.single_le_sum (f := fun c => p c * lam c) (fun c _ => mul_nonneg (hp c).le (hl0 c)) (Finset.mem_univ j)
      rw [hlj, mul_one] at this
      exact this
    have hq1 : q < 1 := by
      have h3 : 0 < ∑ c, p c * (1 - lam c) := by
        refine lt_of_lt_of_le (hp i) ?_
        have := Finset.single_le_sum (f := fun c => p c * (1 - lam c))
          (fun c _ => mul_nonneg (hp c).le (by linarith [hl1 c])) (Finset.mem_univ i)
        rw [hli, sub_zero, mul_one] at this
        exact this
      simp only [mul_sub, mul_one, Finset.sum_sub_distrib, hs] at h3
      linarith
    have hchord : ∀ c, Real.exp (h c) ≤ Real.exp (h i) * (1 - lam c + lam c * Real.exp D) := by
      intro c
      have hconv := convexOn_exp.2 (Set.mem_univ 0) (Set.mem_univ D) (sub_nonneg.mpr (hl1 c)) (hl0 c) (by ring)
      simp only [smul_eq_mul, mul_zero, zero_add, Real.exp_zero, mul_one] at hconv
      rw [hlc c, Real.exp_add]
      exact mul_le_mul_of_nonneg_left hconv (Real.exp_pos _).le
    have hsum : ∑ c, p c * Real.exp (h c) ≤ Real.exp (h i) * (1 - q + q * Real.exp D) := by
      calc ∑ c, p c * Real.exp (h c) ≤ ∑ c, p c * (Real.exp (h i) * (1 - lam c + lam c * Real.exp D)) :=
            Finset.sum_le_sum fun c _ => mul_le_mul_of_nonneg_left (hchord c) (hp c).le
        _ = Real.exp (h i) * (∑ c, p c - q + q * Real.exp D) := by
            rw [hq, Finset.sum_mul, ← Finset.sum_sub_distrib, ← Finset.sum_add_distrib, Finset.mul_sum]
            exact Finset.sum_congr rfl fun c _ => by ring
        _ = _ := by rw [hs]
    have hpos : 0 < ∑ c, p c * Real.exp (h c) := Finset.sum_pos (fun c _ => mul_pos (hp c) (Real.exp_pos _)) hne
    have hlog := Real.log_le_log hpos hsum
    have h1q : 0 < 1 - q := by linarith
    rw [Real.log_mul (Real.exp_pos _).ne' (by positivity), Real.log_exp] at hlog
    have htwo := two_point q D hq0 hq1
    have hmean : ∑ c, p c * h c = h i + q * D := by
      rw [Finset.sum_congr rfl fun c _ => by rw [hlc c, mul_add, ← mul_assoc], Finset.sum_add_distrib, ← Finset.sum_mul, hs,
        ← Finset.sum_mul, one_mul]
    have hpair : h i ^ 2 + h j ^ 2 ≤ ∑ c, h c ^ 2 := by
      rw [← Finset.sum_pair (f := fun c => h c ^ 2) hij]
      exact Finset.sum_le_sum_of_subset_of_nonneg (Finset.subset_univ _) fun c _ _ => sq_nonneg _
    have hD2 : D ^ 2 ≤ 2 * ∑ c, h c ^ 2 := by nlinarith [sq_nonneg (h i + h j)]
    rw [hmean]
    linarith

/-- Log-sum-exp lies below its tangents plus a quarter of the squared distance. -/
theorem lse_upper (s t : Fin k → ℝ) (c0 : Fin k) :
    Real.log (∑ c, Real.exp (t c)) ≤ Real.log (∑ c, Real.exp (s c)) +
      ∑ c, Real.exp (s c) / (∑ b, Real.exp (s b)) * (t c - s c) + 1 / 4 * ∑ c, (t c - s c) ^ 2 := by
  set Z := ∑ b, Real.exp (s b) with hZ
  have hZ0 : 0 < Z := Finset.sum_pos (fun c _ => Real.exp_pos _) ⟨c0, Finset.mem_univ c0⟩
  have h1 : ∑ c, Real.exp (s c) / Z = 1 := by
    rw [← Finset.sum_div, ← hZ, div_self hZ0.ne']
  have h2 := hoeffding (fun c => Real.exp (s c) / Z) (fun c => t c - s c) (fun c => div_pos (Real.exp_pos _) hZ0) h1
  have h3 : ∑ c, Real.exp (s c) / Z * Real.exp (t c - s c) = (∑ c, Real.exp (t c)) / Z := by
    rw [Finset.sum_div]
    refine Finset.sum_congr rfl fun c _ => ?_
    rw [div_mul_eq_mul_div, ← Real.exp_add]
    congr 2
    ring
  rw [h3, Real.log_div (Finset.sum_pos (fun c _ => Real.exp_pos _) ⟨c0, Finset.mem_univ c0⟩).ne' hZ0.ne'] at h2
  linarith

theorem classLoss_upper (v w : Fin d → Fin k → ℝ) (p : List ℝ × Fin k) :
    classLoss v p ≤ classLoss w p + ∑ c, (Real.exp (cscore w p.1 c) / ∑ b, Real.exp (cscore w p.1 b) - if c = p.2 then 1 else 0) *
      (cscore v p.1 c - cscore w p.1 c) + 1 / 4 * ∑ c, (cscore v p.1 c - cscore w p.1 c) ^ 2 := by
  have h := lse_upper (cscore w p.1) (cscore v p.1) p.2
  have e : ∑ c, (Real.exp (cscore w p.1 c) / ∑ b, Real.exp (cscore w p.1 b) - if c = p.2 then 1 else 0) *
      (cscore v p.1 c - cscore w p.1 c) = ∑ c, Real.exp (cscore w p.1 c) / (∑ b, Real.exp (cscore w p.1 b)) *
        (cscore v p.1 c - cscore w p.1 c) - (cscore v p.1 p.2 - cscore w p.1 p.2) := by
    simp only [sub_mul, Finset.sum_sub_distrib, ite_mul, one_mul, zero_mul, Finset.sum_ite_eq', Finset.mem_univ, if_true]
  rw [e]
  have e1 : classLoss w p = Real.log (∑ c, Real.exp (cscore w p.1 c)) - cscore w p.1 p.2 := rfl
  have e2 : classLoss v p = Real.log (∑ c, Real.exp (cscore v p.1 c)) - cscore v p.1 p.2 := rfl
  rw [e1, e2]
  linarith

theorem classLoss_nonneg (w : Fin d → Fin k → ℝ) (p : List ℝ × Fin k) : 0 ≤ classLoss w p := by
  have e1 : classLoss w p = Real.log (∑ c, Real.exp (cscore w p.1 c)) - cscore w p.1 p.2 := rfl
  rw [e1]
  have h1 : Real.exp (cscore w p.1 p.2) ≤ ∑ c, Real.exp (cscore w p.1 c) :=
    Finset.single_le_sum (f := fun c => Real.exp (cscore w p.1 c)) (fun c _ => (Real.exp_pos _).le) (Finset.mem_univ p.2)
  have h2 := Real.log_le_log (Real.exp_pos _) h1
  rw [Real.log_exp] at h2
  linarith

/-- A matrix as a vector of its entries, and back. -/
def curried (v : Fin d × Fin k → ℝ) : Fin d → Fin k → ℝ := fun f c => v (f, c)

/-- Mean negative log likelihood plus half the squared weights times lambda, divided by the number of samples. -/
noncomputable def softObjective (lambda : ℝ) (l : List (List ℝ × Fin k)) (v : Fin d × Fin k → ℝ) : ℝ :=
  (l.map (classLoss (curried v))).sum / l.length + lambda * ((∑ j, v j ^ 2) / (2 * l.length))

/-- Its gradient. -/
noncomputable def softGrad (lambda : ℝ) (l : List (List ℝ × Fin k)) (v : Fin d × Fin k → ℝ) (j : Fin d × Fin k) : ℝ :=
  softmaxGrad lambda l l.length (curried v) j.1 j.2

/-- The terms of the samples in a derivative. -/
theorem soft_linear (l : List (List ℝ × Fin k)) (n : Nat) (v w : Fin d × Fin k → ℝ) :
    ∑ j, softmaxGrad 0 l n (curried w) j.1 j.2 * (v j - w j) = (l.map fun p =>
      ∑ c, (Real.exp (cscore (curried w) p.1 c) / ∑ b, Real.exp (cscore (curried w) p.1 b) - if c = p.2 then 1 else 0) *
        (cscore (curried v) p.1 c - cscore (curried w) p.1 c)).sum / n := by
  rw [Fintype.sum_prod_type]
  unfold softmaxGrad
  simp only [mul_zero, add_zero]
  induction l with
  | nil => simp
  | cons p l ih =>
    simp only [List.map_cons, List.sum_cons, add_div, add_mul, Finset.sum_add_distrib]
    rw [ih]
    congr 1
    rw [Finset.sum_comm, Finset.sum_div]
    refine Finset.sum_congr rfl fun c _ => ?_
    rw [cscore_sub, Finset.mul_sum, Finset.sum_div]
    exact Finset.sum_congr rfl fun f _ => by simp only [curried]; ring

theorem soft_smooth (lambda : ℝ) (hl : 0 ≤ lambda) (l : List (List ℝ × Fin k)) (hne : l.length ≠ 0) (hd : ∀ p ∈ l, p.1.length = d) :
    Smooth (softObjective (d := d) lambda l) (softGrad lambda l) (steepness (1 / 2) lambda (l.map Prod.fst)) := by
  have hn : (0 : ℝ) < l.length := by exact_mod_cast Nat.pos_of_ne_zero hne
  have hgrad : ∀ v w : Fin d × Fin k → ℝ, ∑ j, softGrad lambda l w j * (v j - w j) =
      ∑ j, softmaxGrad 0 l l.length (curried w) j.1 j.2 * (v j - w j) + lambda / l.length * ∑ j, w j * (v j - w j) := by
    intro v w
    rw [Finset.mul_sum, ← Finset.sum_add_distrib]
    refine Finset.sum_congr rfl fun j _ => ?_
    have : curried w j.1 j.2 = w j := rfl
    simp only [softGrad, softmaxGrad, this]
    ring
  have hridge : ∀ v w : Fin d × Fin k → ℝ, lambda * ((∑ j, v j ^ 2) / (2 * l.length)) = lambda * ((∑ j, w j ^ 2) / (2 * l.length)) +
      lambda / l.length * ∑ j, w j * (v j - w j) + lambda / l.length / 2 * ∑ j, (v j - w j) ^ 2 := by
    intro v w
    have : ∑ j, v j ^ 2 = ∑ j, w j ^ 2 + 2 * ∑ j, w j * (v j - w j) + ∑ j, (v j - w j) ^ 2 := by
      rw [Finset.mul_sum, ← Finset.sum_add_distrib, ← Finset.sum_add_distrib]
      exact Finset.sum_congr rfl fun j _ => by ring
    rw [this]
    field_simp
  constructor
  · intro w v
    rw [hgrad, soft_linear]
    unfold softObjective
    rw [hridge v w]
    have h1 : (l.map (classLoss (curried w))).sum + (l.map fun p =>
        ∑ c, (Real.exp (cscore (curried w) p.1 c) / ∑ b, Real.exp (cscore (curried w) p.1 b) - if c = p.2 then 1 else 0) *
          (cscore (curried v) p.1 c - cscore (curried w) p.1 c)).sum ≤ (l.map (classLoss (curried v))).sum := by
      rw [← List.sum_map_add]
      exact List.sum_le_sum fun p _ => classLoss_tangent _ _ p
    have h2 := div_le_div_of_nonneg_right h1 hn.le
    rw [add_div] at h2
    have h3 : 0 ≤ lambda / l.length / 2 * ∑ j, (v j - w j) ^ 2 :=
      mul_nonneg (by positivity) (Finset.sum_nonneg fun j _ => sq_nonneg _)
    linarith
  · intro w v
    rw [hgrad, soft_linear]
    unfold softObjective
    rw [hridge v w]
    have hquad : ∀ p ∈ l, ∑ c, (cscore (curried v) p.1 c - cscore (curried w) p.1 c) ^ 2 ≤
        (p.1.map fun a => a ^ 2).sum * ∑ j, (v j - w j) ^ 2 := by
      intro p hp
      rw [Fintype.sum_prod_type, Finset.sum_comm, Finset.mul_sum]
      refine Finset.sum_le_sum fun c _ => ?_
      rw [cscore_sub]
      exact score_sq_le p.1 (hd p hp) fun f => curried v f c - curried w f c
    have h1 : (l.map (classLoss (curried v))).sum ≤ (l.map (classLoss (curried w))).sum + (l.map fun p =>
        ∑ c, (Real.exp (cscore (curried w) p.1 c) / ∑ b, Real.exp (cscore (curried w) p.1 b) - if c = p.2 then 1 else 0) *
          (cscore (curried v) p.1 c - cscore (curried w) p.1 c)).sum +
        1 / 4 * (featureMass (l.map Prod.fst) * ∑ j, (v j - w j) ^ 2) := by
      clear hne hn hgrad hridge
      induction l with
      | nil => simp [featureMass]
      | cons p l ih =>
        have h2 := classLoss_upper (curried v) (curried w) p
        have h3 := hquad p List.mem_cons_self
        have h4 := ih (fun q hq => hd q (List.mem_cons_of_mem _ hq)) fun q hq => hquad q (List.mem_cons_of_mem _ hq)
        simp only [List.map_cons, List.sum_cons, featureMass] at h4 ⊢
        nlinarith
    have h2 := div_le_div_of_nonneg_right h1 hn.le
    rw [add_div, add_div] at h2
    have h3 : steepness (1 / 2) lambda (l.map Prod.fst) / 2 * ∑ j, (v j - w j) ^ 2 =
        1 / 4 * (featureMass (l.map Prod.fst) * ∑ j, (v j - w j) ^ 2) / l.length + lambda / l.length / 2 * ∑ j, (v j - w j) ^ 2 := by
      unfold steepness
      rw [List.length_map]
      ring
    rw [h3]
    linarith

theorem softObjective_nonneg (lambda : ℝ) (hl : 0 ≤ lambda) (l : List (List ℝ × Fin k)) (v : Fin d × Fin k → ℝ) :
    0 ≤ softObjective lambda l v := by
  unfold softObjective
  refine add_nonneg (div_nonneg (List.sum_nonneg fun a ha => ?_) (Nat.cast_nonneg _)) (mul_nonneg hl (div_nonneg ?_ (by positivity)))
  · obtain ⟨p, _, rfl⟩ := List.mem_map.mp ha
    exact classLoss_nonneg _ p
  · exact Finset.sum_nonneg fun j _ => sq_nonneg _

theorem softObjective_perm (lambda : ℝ) {l l' : List (List ℝ × Fin k)} (h : l.Perm l') (v : Fin d × Fin k → ℝ) :
    softObjective lambda l v = softObjective lambda l' v := by
  unfold softObjective
  rw [(h.map (classLoss (curried v))).sum_eq, h.length_eq]

theorem softGrad_perm (lambda : ℝ) {l l' : List (List ℝ × Fin k)} (h : l.Perm l') (v : Fin d × Fin k → ℝ) :
    softGrad lambda l v = softGrad lambda l' v := by
  funext j
  unfold softGrad softmaxGrad
  rw [(h.map fun p => (Real.exp (cscore (curried v) p.1 j.2) / ∑ b, Real.exp (cscore (curried v) p.1 b) - if j.2 = p.2 then 1 else 0) *
    p.1.getD j.1 0).sum_eq, h.length_eq]

end OpenML.Softmax
