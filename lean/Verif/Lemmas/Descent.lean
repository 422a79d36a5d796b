import Verif.Spec.Descent
import Verif.Lemmas.LinearFit
import Verif.Lemmas.Loss
import Verif.Props.SCD
import Mathlib.Algebra.Order.BigOperators.Ring.Finset

/-!
# Gradient descent on smooth convex functions, and its occurrence as `SGD` with one batch
-/

namespace OpenML.Descent

open Spec Loss SGD
open scoped BigOperators

section Abstract

variable {ι : Type} [Fintype ι]

/-- `F` lies above its tangents and at most `L / 2` times the squared distance above them. -/
structure Smooth (F : (ι → ℝ) → ℝ) (G : (ι → ℝ) → ι → ℝ) (L : ℝ) : Prop where
  lower : ∀ v w, F v + ∑ j, G v j * (w j - v j) ≤ F w
  upper : ∀ v w, F w ≤ F v + ∑ j, G v j * (w j - v j) + L / 2 * ∑ j, (w j - v j) ^ 2

/-- An entry of a gradient after clipping. -/
noncomputable def clipped (a : ℝ) : ℝ := max (min a (10 ^ 10)) (-10 ^ 10)

theorem clipped_mul (a : ℝ) : clipped a ^ 2 ≤ a * clipped a := by
  unfold clipped
  rcases le_total a (10 ^ 10) with h | h
  · rw [min_eq_left h]
    rcases le_total a (-10 ^ 10) with h' | h'
    · rw [max_eq_right h']; nlinarith
    · rw [max_eq_left h']; nlinarith
  · rw [min_eq_right h, max_eq_left (by norm_num)]; nlinarith

theorem clipped_of_sq (a : ℝ) (h : a ^ 2 ≤ 10 ^ 20) : clipped a = a := by
  have : |a| ≤ 10 ^ 10 := by
    refine abs_le_of_sq_le_sq ?_ (by norm_num)
    calc a ^ 2 ≤ 10 ^ 20 := h
      _ = (10 ^ 10) ^ 2 := by norm_num
  obtain ⟨h1, h2⟩ := abs_le.mp this
  rw [clipped, min_eq_left h2, max_eq_left h1]

variable {F : (ι → ℝ) → ℝ} {G : (ι → ℝ) → ι → ℝ} {L : ℝ}

/-- One step with clipped gradient. -/
noncomputable def move (G : (ι → ℝ) → ι → ℝ) (eta : ℝ) (w : ι → ℝ) : ι → ℝ := fun j => w j - eta * clipped (G w j)

theorem move_descent (h : Smooth F G L) (eta : ℝ) (h0 : 0 ≤ eta) (w : ι → ℝ) :
    F (move G eta w) ≤ F w - eta * (1 - eta * L / 2) * ∑ j, clipped (G w j) ^ 2 := by
  have h1 := h.upper w (move G eta w)
  have h2 : ∑ j, G w j * (move G eta w j - w j) ≤ -(eta * ∑ j, clipped (G w j) ^ 2) := by
    rw [Finset.mul_sum, ← Finset.sum_neg_distrib]
    refine Finset.sum_le_sum fun j _ => ?_
    have := mul_le_mul_of_nonneg_left (clipped_mul (G w j)) h0
    unfold move
    linarith
  have h3 : ∑ j, (move G eta w j - w j) ^ 2 = eta ^ 2 * ∑ j, clipped (G w j) ^ 2 := by
    rw [Finset.mul_sum]
    refine Finset.sum_congr rfl fun j _ => ?_
    unfold move
    ring
  rw [h3] at h1
  nlinarith

theorem move_le (h : Smooth F G L) (eta : ℝ) (h0 : 0 ≤ eta) (h2 : eta * L ≤ 2) (w : ι → ℝ) : F (move G eta w) ≤ F w := by
  have h1 := move_descent h eta h0 w
  have : 0 ≤ eta * (1 - eta * L / 2) * ∑ j, clipped (G w j) ^ 2 :=
    mul_nonneg (mul_nonneg h0 (by linarith)) (Finset.sum_nonneg fun j _ => sq_nonneg _)
  linarith

/-- Value after a step along the gradient without clipping. -/
theorem along_gradient (h : Smooth F G L) (t : ℝ) (w : ι → ℝ) :
    F (fun j => w j - t * G w j) ≤ F w - t * (1 - t * L / 2) * ∑ j, G w j ^ 2 := by
  have h1 := h.upper w fun j => w j - t * G w j
  have h2 : ∑ j, G w j * ((w j - t * G w j) - w j) = -(t * ∑ j, G w j ^ 2) := by
    rw [Finset.mul_sum, ← Finset.sum_neg_distrib]
    refine Finset.sum_congr rfl fun j _ => ?_
    ring
  have h3 : ∑ j, ((w j - t * G w j) - w j) ^ 2 = t ^ 2 * ∑ j, G w j ^ 2 := by
    rw [Finset.mul_sum]
    refine Finset.sum_congr rfl fun j _ => ?_
    ring
  rw [h2, h3] at h1
  linarith

/-- How far a function bounded below by `m` can lie above that bound, in terms of its gradient. -/
theorem grad_sq_le_of_bound (h : Smooth F G L) (hL : 0 ≤ L) (m : ℝ) (hF : ∀ w, m ≤ F w) (w : ι → ℝ) :
    ∑ j, G w j ^ 2 ≤ 2 * L * (F w - m) := by
  have hS : 0 ≤ ∑ j, G w j ^ 2 := Finset.sum_nonneg fun j _ => sq_nonneg _
  rcases hL.eq_or_lt with rfl | hL
  · by_contra hc
    have hpos : 0 < ∑ j, G w j ^ 2 := by linarith
    have h1 := along_gradient h ((F w - m + 1) / ∑ j, G w j ^ 2) w
    have h2 := hF fun j => w j - (F w - m + 1) / (∑ j, G w j ^ 2) * G w j
    have h3 : (F w - m + 1) / (∑ j, G w j ^ 2) * (∑ j, G w j ^ 2) = F w - m + 1 := div_mul_cancel₀ _ hpos.ne'
    simp only [mul_zero, zero_div, sub_zero, mul_one] at h1
    linarith
  · have h1 := along_gradient h (1 / L) w
    have h2 := hF fun j => w j - 1 / L * G w j
    have h3 : 1 / L * (1 - 1 / L * L / 2) * ∑ j, G w j ^ 2 = (∑ j, G w j ^ 2) / (2 * L) := by
      field_simp
      ring
    rw [h3] at h1
    have h4 : (∑ j, G w j ^ 2) / (2 * L) ≤ F w - m := by linarith
    rw [div_le_iff₀ (by positivity)] at h4
    linarith

/-- The gradient of a non-negative function is bounded by its value. -/
theorem grad_sq_le (h : Smooth F G L) (hL : 0 ≤ L) (hF : ∀ w, 0 ≤ F w) (w : ι → ℝ) : ∑ j, G w j ^ 2 ≤ 2 * L * F w := by
  simpa using grad_sq_le_of_bound h hL 0 hF w

/-- Distance of gradients in terms of the distance from the tangent. -/
theorem grad_sub_sq_le (h : Smooth F G L) (hL : 0 ≤ L) (v w : ι → ℝ) :
    ∑ j, (G w j - G v j) ^ 2 ≤ 2 * L * (F w - F v - ∑ j, G v j * (w j - v j)) := by
  have hs : Smooth (fun x => F x - ∑ j, G v j * x j) (fun x j => G x j - G v j) L := by
    constructor
    · intro a b
      have := h.lower a b
      have h1 : ∑ j, (G a j - G v j) * (b j - a j) = ∑ j, G a j * (b j - a j) - (∑ j, G v j * b j - ∑ j, G v j * a j) := by
        rw [← Finset.sum_sub_distrib, ← Finset.sum_sub_distrib]
        exact Finset.sum_congr rfl fun j _ => by ring
      linarith
    · intro a b
      have := h.upper a b
      have h1 : ∑ j, (G a j - G v j) * (b j - a j) = ∑ j, G a j * (b j - a j) - (∑ j, G v j * b j - ∑ j, G v j * a j) := by
        rw [← Finset.sum_sub_distrib, ← Finset.sum_sub_distrib]
        exact Finset.sum_congr rfl fun j _ => by ring
      linarith
  have hsum : ∀ x : ι → ℝ, ∑ j, G v j * (x j - v j) = ∑ j, G v j * x j - ∑ j, G v j * v j := by
    intro x
    rw [← Finset.sum_sub_distrib]
    exact Finset.sum_congr rfl fun j _ => by ring
  have := grad_sq_le_of_bound hs hL (F v - ∑ j, G v j * v j) (fun x => by have := h.lower v x; rw [hsum x] at this; linarith) w
  rw [hsum w]
  linarith

/-- The gradient does not get longer in a step. -/
theorem grad_after (h : Smooth F G L) (hL : 0 ≤ L) (eta : ℝ) (h0 : 0 < eta) (h2 : eta * L ≤ 2) (v : ι → ℝ) :
    ∑ j, G (fun j => v j - eta * G v j) j ^ 2 ≤ ∑ j, G v j ^ 2 := by
  set w : ι → ℝ := fun j => v j - eta * G v j with hw
  have h3 := grad_sub_sq_le h hL v w
  have h4 := grad_sub_sq_le h hL w v
  have e1 : ∑ j, G v j * (w j - v j) = -(eta * ∑ j, G v j ^ 2) := by
    rw [Finset.mul_sum, ← Finset.sum_neg_distrib]
    exact Finset.sum_congr rfl fun j _ => by simp only [hw]; ring
  have e2 : ∑ j, G w j * (v j - w j) = eta * ∑ j, G w j * G v j := by
    rw [Finset.mul_sum]
    exact Finset.sum_congr rfl fun j _ => by simp only [hw]; ring
  have e3 : ∑ j, (G w j - G v j) ^ 2 = ∑ j, G w j ^ 2 - 2 * ∑ j, G w j * G v j + ∑ j, G v j ^ 2 := by
    rw [Finset.mul_sum, ← Finset.sum_sub_distrib, ← Finset.sum_add_distrib]
    exact Finset.sum_congr rfl fun j _ => by ring
  have e4 : ∑ j, (G v j - G w j) ^ 2 = ∑ j, (G w j - G v j) ^ 2 := Finset.sum_congr rfl fun j _ => by ring
  rw [e1] at h3
  rw [e2, e4] at h4
  have hS : 0 ≤ ∑ j, (G w j - G v j) ^ 2 := Finset.sum_nonneg fun j _ => sq_nonneg _
  have hD : 0 ≤ ∑ j, G v j ^ 2 - ∑ j, G w j * G v j := by
    by_contra hc
    have hc' : ∑ j, G v j ^ 2 - ∑ j, G w j * G v j < 0 := by linarith
    have hv := h.lower v w
    have hw' := h.lower w v
    rw [e1] at hv
    rw [e2] at hw'
    nlinarith
  have h5 : ∑ j, (G w j - G v j) ^ 2 ≤ (eta * L) * (∑ j, G v j ^ 2 - ∑ j, G w j * G v j) := by nlinarith
  have h6 : ∑ j, (G w j - G v j) ^ 2 ≤ 2 * (∑ j, G v j ^ 2 - ∑ j, G w j * G v j) :=
    h5.trans (mul_le_mul_of_nonneg_right h2 hD)
  rw [e3] at h6
  linarith

theorem unclipped (h : Smooth F G L) (hL : 0 ≤ L) (hF : ∀ w, 0 ≤ F w) (w : ι → ℝ) (hw : 2 * L * F w ≤ 10 ^ 20) (j : ι) :
    clipped (G w j) = G w j := by
  refine clipped_of_sq _ (le_trans ?_ ((grad_sq_le h hL hF w).trans hw))
  exact Finset.single_le_sum (f := fun j => G w j ^ 2) (fun j _ => sq_nonneg _) (Finset.mem_univ j)

/-- Progress towards any other point. -/
theorem move_progress (h : Smooth F G L) (eta : ℝ) (h0 : 0 ≤ eta) (h1 : eta * L ≤ 1) (w u : ι → ℝ)
    (hc : ∀ j, clipped (G w j) = G w j) :
    2 * eta * (F (move G eta w) - F u) ≤ ∑ j, (w j - u j) ^ 2 - ∑ j, (move G eta w j - u j) ^ 2 := by
  have h2 := move_descent h eta h0 w
  have h3 := h.lower w u
  simp only [hc] at h2
  have h4 : ∑ j, (move G eta w j - u j) ^ 2 =
      ∑ j, (w j - u j) ^ 2 + 2 * eta * ∑ j, G w j * (u j - w j) + eta ^ 2 * ∑ j, G w j ^ 2 := by
    rw [Finset.mul_sum, Finset.mul_sum, ← Finset.sum_add_distrib, ← Finset.sum_add_distrib]
    refine Finset.sum_congr rfl fun j _ => ?_
    simp only [move, hc]
    ring
  have h5 : 0 ≤ ∑ j, G w j ^ 2 := Finset.sum_nonneg fun j _ => sq_nonneg _
  have h6 : F (move G eta w) ≤ F w - eta / 2 * ∑ j, G w j ^ 2 := by
    have : eta / 2 * ∑ j, G w j ^ 2 ≤ eta * (1 - eta * L / 2) * ∑ j, G w j ^ 2 :=
      mul_le_mul_of_nonneg_right (by nlinarith) h5
    linarith
  rw [h4]
  nlinarith

/-- Values along a run never increase. -/
theorem run_le (h : Smooth F G L) (eta : Nat → ℝ) (h0 : ∀ i, 0 ≤ eta i) (h2 : ∀ i, eta i * L ≤ 2) (v : Nat → ι → ℝ) (n : Nat)
    (hv : ∀ i < n, v (i + 1) = move G (eta i) (v i)) : ∀ i j, i ≤ j → j ≤ n → F (v j) ≤ F (v i) := by
  intro i j hij
  induction j, hij using Nat.le_induction with
  | base => intro _; exact le_refl _
  | succ j hij ih =>
    intro hj
    rw [hv j (by omega)]
    exact (move_le h _ (h0 j) (h2 j) _).trans (ih (by omega))

/-- Distance to the best value after `n` steps. -/
theorem run_rate (h : Smooth F G L) (hL : 0 ≤ L) (hF : ∀ w, 0 ≤ F w) (eta : Nat → ℝ) (h0 : ∀ i, 0 ≤ eta i)
    (h1 : ∀ i, eta i * L ≤ 1) (v : Nat → ι → ℝ) (n : Nat) (hv : ∀ i < n, v (i + 1) = move G (eta i) (v i))
    (hstart : 2 * L * F (v 0) ≤ 10 ^ 20) (u : ι → ℝ) :
    2 * (∑ i ∈ Finset.range n, eta i) * (F (v n) - F u) ≤ ∑ j, (v 0 j - u j) ^ 2 := by
  have hle := run_le h eta h0 (fun i => (h1 i).trans (by norm_num)) v n hv
  have key : ∀ m ≤ n, ∑ i ∈ Finset.range m, 2 * eta i * (F (v n) - F u) ≤ ∑ j, (v 0 j - u j) ^ 2 - ∑ j, (v m j - u j) ^ 2 := by
    intro m
    induction m with
    | zero => intro _; simp
    | succ m ih =>
      intro hm
      have hc : ∀ j, clipped (G (v m) j) = G (v m) j := unclipped h hL hF (v m)
        (le_trans (mul_le_mul_of_nonneg_left (hle 0 m (by omega) (by omega)) (by positivity)) hstart)
      have hp := move_progress h (eta m) (h0 m) (h1 m) (v m) u hc
      rw [← hv m (by omega)] at hp
      have h3 := hle (m + 1) n hm (le_refl _)
      have h4 : 2 * eta m * (F (v n) - F u) ≤ 2 * eta m * (F (v (m + 1)) - F u) :=
        mul_le_mul_of_nonneg_left (by linarith) (by linarith [h0 m])
      rw [Finset.sum_range_succ]
      have := ih (by omega)
      linarith
  have := key n (le_refl _)
  rw [← Finset.sum_mul, ← Finset.mul_sum] at this
  have h5 : 0 ≤ ∑ j, (v n j - u j) ^ 2 := Finset.sum_nonneg fun j _ => sq_nonneg _
  linarith

/-- The weights after each epoch. -/
noncomputable def iterate (G : (ι → ℝ) → ι → ℝ) (eta : Nat → ℝ) (w : ι → ℝ) : Nat → ι → ℝ
  | 0 => w
  | i + 1 => move G (eta i) (iterate G eta w i)

end Abstract

section Losses

variable {d : Nat}

theorem score_sq_le (x : List ℝ) (hx : x.length = d) (h : Fin d → ℝ) :
    (∑ j : Fin d, x.getD j 0 * h j) ^ 2 ≤ (x.map fun a => a ^ 2).sum * ∑ j, h j ^ 2 := by
  have h1 := Finset.sum_mul_sq_le_sq_mul_sq Finset.univ (fun j : Fin d => x.getD j 0) h
  have h2 : (x.map fun a => a ^ 2).sum = ∑ j : Fin d, x.getD j 0 ^ 2 := by
    subst hx
    rw [← Fin.sum_univ_fun_getElem]
    refine Finset.sum_congr rfl fun j _ => ?_
    simp
  rw [h2]
  exact h1

/-- Upper bound of a mean loss by tangent and squared distance. -/
theorem meanLoss_upper (phi dphi : ℝ → ℝ → ℝ) (c : ℝ) (hc : 0 ≤ c)
    (ht : ∀ y s t, phi y t ≤ phi y s + dphi y s * (t - s) + c / 2 * (t - s) ^ 2) (lambda : ℝ)
    (l : List (List ℝ × ℝ)) (hl : ∀ p ∈ l, p.1.length = d) (v w : Fin d → ℝ) :
    meanLoss phi l v + lambda * ridgeTerm l.length v ≤
      meanLoss phi l w + lambda * ridgeTerm l.length w + ∑ j, gradOf dphi lambda l w j * (v j - w j) +
        steepness c lambda (l.map Prod.fst) / 2 * ∑ j, (v j - w j) ^ 2 := by
  have h1 : (l.map fun p => phi p.2 (score p.1 v)).sum ≤ (l.map fun p => phi p.2 (score p.1 w)).sum +
      ∑ j, (l.map fun p => dphi p.2 (score p.1 w) * p.1.getD j 0).sum * (v j - w j) +
      c / 2 * (featureMass (l.map Prod.fst) * ∑ j, (v j - w j) ^ 2) := by
    clear lambda
    induction l with
    | nil => simp [featureMass]
    | cons p l ih =>
      have h2 := ht p.2 (score p.1 w) (score p.1 v)
      have h3 := score_sq_le p.1 (hl p List.mem_cons_self) fun j => v j - w j
      rw [← score_sub] at h3
      have h4 := ih fun q hq => hl q (List.mem_cons_of_mem _ hq)
      have h5 : ∑ j, ((p :: l).map fun p => dphi p.2 (score p.1 w) * p.1.getD j 0).sum * (v j - w j) =
          dphi p.2 (score p.1 w) * (score p.1 v - score p.1 w) +
            ∑ j, (l.map fun p => dphi p.2 (score p.1 w) * p.1.getD j 0).sum * (v j - w j) := by
        rw [score_sub, Finset.mul_sum, ← Finset.sum_add_distrib]
        refine Finset.sum_congr rfl fun j _ => ?_
        rw [List.map_cons, List.sum_cons]
        ring
      rw [h5]
      simp only [List.map_cons, List.sum_cons, featureMass] at h4 ⊢
      have h6 := mul_le_mul_of_nonneg_left h3 (show 0 ≤ c / 2 by positivity)
      nlinarith
  have hn : (0 : ℝ) ≤ (l.length : ℝ)⁻¹ := by positivity
  have h2 := mul_le_mul_of_nonneg_left h1 hn
  have h3 : lambda * ridgeTerm l.length v = lambda * ridgeTerm l.length w + ∑ j, (w j / l.length * lambda) * (v j - w j) +
      lambda * (l.length : ℝ)⁻¹ / 2 * ∑ j, (v j - w j) ^ 2 := by
    unfold ridgeTerm
    rw [Finset.sum_div, Finset.sum_div, Finset.mul_sum, Finset.mul_sum, Finset.mul_sum, ← Finset.sum_add_distrib,
      ← Finset.sum_add_distrib]
    refine Finset.sum_congr rfl fun j _ => ?_
    rw [mul_comm (2 : ℝ), div_mul_eq_div_div, div_mul_eq_div_div, div_eq_mul_inv (v j ^ 2), div_eq_mul_inv (w j ^ 2),
      div_eq_mul_inv (w j)]
    ring
  have h4 : ∑ j, gradOf dphi lambda l w j * (v j - w j) =
      (l.length : ℝ)⁻¹ * ∑ j, (l.map fun p => dphi p.2 (score p.1 w) * p.1.getD j 0).sum * (v j - w j) +
        ∑ j, (w j / l.length * lambda) * (v j - w j) := by
    rw [Finset.mul_sum, ← Finset.sum_add_distrib]
    refine Finset.sum_congr rfl fun j _ => ?_
    unfold gradOf
    rw [div_eq_mul_inv]
    ring
  rw [h3, h4]
  unfold meanLoss steepness
  rw [List.length_map]
  simp only [div_eq_mul_inv] at h2 ⊢
  linarith

theorem halfSquare_upper (y s t : ℝ) : halfSquare y t ≤ halfSquare y s + (s - y) * (t - s) + 1 / 2 * (t - s) ^ 2 := by
  unfold halfSquare
  nlinarith

theorem sigmoid_step (s t : ℝ) (h : s ≤ t) : Real.sigmoid t - Real.sigmoid s ≤ 1 / 4 * (t - s) := by
  have hd : Differentiable ℝ Real.sigmoid := fun x => (Real.hasDerivAt_sigmoid x).differentiableAt
  have := Convex.image_sub_le_mul_sub_of_deriv_le (convex_Ici s) hd.continuous.continuousOn hd.differentiableOn (C := 1 / 4)
    (fun x _ => by
      rw [(Real.hasDerivAt_sigmoid x).deriv]
      nlinarith [sq_nonneg (Real.sigmoid x - 1 / 2)]) s (Set.mem_Ici.mpr (le_refl s)) t (Set.mem_Ici.mpr h) h
  exact this

theorem crossEntropy_upper (y s t : ℝ) :
    crossEntropy y t ≤ crossEntropy y s + (Real.sigmoid s - y) * (t - s) + (1 / 4) / 2 * (t - s) ^ 2 := by
  have hder : ∀ x, HasDerivAt (fun t => (1 / 4) / 2 * (t - s) ^ 2 - crossEntropy y t) (1 / 4 * (x - s) - (Real.sigmoid x - y)) x := by
    intro x
    have h1 := (((hasDerivAt_id x).sub_const s).pow 2).const_mul ((1 / 4 : ℝ) / 2)
    refine (h1.sub (crossEntropy_deriv y x)).congr_deriv ?_
    simp
    ring
  have hm : Monotone fun x => 1 / 4 * (x - s) - (Real.sigmoid x - y) := by
    intro a b hab
    have := sigmoid_step a b hab
    dsimp only
    linarith
  have := tangent_le _ _ hder hm s t
  nlinarith

theorem crossEntropy_nonneg (y s : ℝ) (h0 : 0 ≤ y) (h1 : y ≤ 1) : 0 ≤ crossEntropy y s := by
  unfold crossEntropy
  have hp := Real.sigmoid_pos s
  have hq := Real.sigmoid_lt_one s
  have h2 : Real.log (Real.sigmoid s) ≤ 0 := Real.log_nonpos hp.le hq.le
  have h3 : Real.log (1 - Real.sigmoid s) ≤ 0 := Real.log_nonpos (by linarith) (by linarith)
  nlinarith [mul_nonneg h0 (neg_nonneg.mpr h2), mul_nonneg (sub_nonneg.mpr h1) (neg_nonneg.mpr h3)]

/-- `loss` computes the mean of `phi` over the samples plus ridge term, and its gradient. -/
structure IsMean (loss : LossFn ℝ (List ℝ)) (phi dphi : ℝ → ℝ → ℝ) (lambda : ℝ) : Prop where
  evaluate : ∀ (X : DMat ℝ), X.WF → ∀ y : List ℝ, y.length = X.nrows → ∀ w : Fin X.ncols → ℝ,
    loss.evaluate X y (List.ofFn w) = .ok (meanLoss phi (X.rows.zip y) w + lambda * ridgeTerm X.nrows w)
  gradient : ∀ (X : DMat ℝ), X.WF → ∀ y : List ℝ, y.length = X.nrows → ∀ w : Fin X.ncols → ℝ,
    loss.gradient X y (List.ofFn w) = .ok (List.ofFn (gradOf dphi lambda (X.rows.zip y) w))

theorem isMean_mse (mu : ℝ) : IsMean ⟨mseEvaluate mu, mseGradient mu⟩ halfSquare (fun a s => s - a) mu :=
  ⟨fun X hX y hy w => mseEvaluate_eq mu X hX y hy w, fun X hX y hy w => mseGradient_eq mu X hX y hy w⟩

theorem isMean_log (lambda : ℝ) : IsMean ⟨logEvaluate lambda, logGradient lambda⟩ crossEntropy (fun a s => Real.sigmoid s - a) lambda :=
  ⟨fun X hX y hy w => logEvaluate_eq lambda X hX y hy w, fun X hX y hy w => logGradient_eq lambda X hX y hy w⟩

/-- The objective on given samples. -/
noncomputable def objective (phi : ℝ → ℝ → ℝ) (lambda : ℝ) (l : List (List ℝ × ℝ)) (w : Fin d → ℝ) : ℝ :=
  meanLoss phi l w + lambda * ridgeTerm l.length w

theorem smooth_objective (phi dphi : ℝ → ℝ → ℝ) (c : ℝ) (hc : 0 ≤ c)
    (ht : ∀ y s t, phi y s + dphi y s * (t - s) ≤ phi y t)
    (hu : ∀ y s t, phi y t ≤ phi y s + dphi y s * (t - s) + c / 2 * (t - s) ^ 2) (lambda : ℝ) (hl : 0 ≤ lambda)
    (l : List (List ℝ × ℝ)) (hd : ∀ p ∈ l, p.1.length = d) :
    Smooth (objective (d := d) phi lambda l) (gradOf dphi lambda l) (steepness c lambda (l.map Prod.fst)) :=
  ⟨fun v w => meanLoss_tangent phi dphi ht lambda hl l w v, fun v w => meanLoss_upper phi dphi c hc hu lambda l hd w v⟩

theorem objective_perm (phi : ℝ → ℝ → ℝ) (lambda : ℝ) {l l' : List (List ℝ × ℝ)} (h : l.Perm l') (w : Fin d → ℝ) :
    objective phi lambda l w = objective phi lambda l' w := by
  unfold objective meanLoss
  rw [(h.map fun p => phi p.2 (score p.1 w)).sum_eq, h.length_eq]

theorem gradOf_perm (dphi : ℝ → ℝ → ℝ) (lambda : ℝ) {l l' : List (List ℝ × ℝ)} (h : l.Perm l') (w : Fin d → ℝ) :
    gradOf dphi lambda l w = gradOf dphi lambda l' w := by
  funext j
  unfold gradOf
  rw [(h.map fun p => dphi p.2 (score p.1 w) * p.1.getD j 0).sum_eq, h.length_eq]

theorem featureMass_nonneg (rows : List (List ℝ)) : 0 ≤ featureMass rows := by
  refine List.sum_nonneg fun a ha => ?_
  obtain ⟨x, _, rfl⟩ := List.mem_map.mp ha
  refine List.sum_nonneg fun b hb => ?_
  obtain ⟨z, _, rfl⟩ := List.mem_map.mp hb
  exact sq_nonneg z

theorem steepness_nonneg (c lambda : ℝ) (hc : 0 ≤ c) (hl : 0 ≤ lambda) (rows : List (List ℝ)) : 0 ≤ steepness c lambda rows :=
  div_nonneg (add_nonneg (mul_nonneg hc (featureMass_nonneg rows)) hl) (Nat.cast_nonneg _)

theorem objective_nonneg (phi : ℝ → ℝ → ℝ) (lambda : ℝ) (hl : 0 ≤ lambda) (l : List (List ℝ × ℝ)) (hp : ∀ p ∈ l, ∀ s, 0 ≤ phi p.2 s)
    (w : Fin d → ℝ) : 0 ≤ objective phi lambda l w := by
  unfold objective meanLoss ridgeTerm
  refine add_nonneg (div_nonneg (List.sum_nonneg fun a ha => ?_) (Nat.cast_nonneg _)) (mul_nonneg hl (div_nonneg ?_ (by positivity)))
  · obtain ⟨p, hpl, rfl⟩ := List.mem_map.mp ha
    exact hp p hpl _
  · exact Finset.sum_nonneg fun j _ => sq_nonneg _

theorem vanilla_move (G : (Fin d → ℝ) → Fin d → ℝ) (eta : ℝ) (w : Fin d → ℝ) :
    vanillaUpdate (List.ofFn w) (clipGrad (List.ofFn (G w))) eta = .ok (List.ofFn (move G eta w)) := by
  rw [vanillaUpdate, clipGrad_eq, subV, if_pos (by simp)]
  congr 1
  apply List.ext_getElem
  · simp
  · intro i h1 h2
    simp [move, clipped]

/-- With a single batch, an epoch is a step of gradient descent on the mean loss over all samples, whatever their order. -/
theorem full_run (loss : LossFn ℝ (List ℝ)) (phi dphi : ℝ → ℝ → ℝ) (lambda : ℝ) (hm : IsMean loss phi dphi lambda) (p : Params ℝ)
    (X : DMat ℝ) (hX : X.WF) (y : List ℝ) (hy : y.length = X.nrows) (hb : p.batchSize = X.nrows)
    (hp : ∀ q, p.shuffle = some q → ∀ i, (q i).Perm (List.range X.nrows)) (eta : Nat → ℝ) (he : ∀ i, p.decay i = .ok (eta i))
    (w : Fin X.ncols → ℝ) (n : Nat) (D : Nat → DMat ℝ × List ℝ) (st : Nat → List ℝ) (L : Nat → ℝ)
    (h : IsRun loss id (sgdStep loss clipGrad vanillaUpdate) p 1 X y (List.ofFn w) n D st L) :
    (∀ i ≤ n, st i = List.ofFn (iterate (gradOf dphi lambda (X.rows.zip y)) eta w i)) ∧
      ∀ i < n, L i = objective phi lambda (X.rows.zip y) (iterate (gradOf dphi lambda (X.rows.zip y)) eta w (i + 1)) := by
  obtain ⟨hD, hst, hrun⟩ := h
  have hzl : (X.rows.zip y).length = X.nrows := by
    rw [List.length_zip, hy]; exact Nat.min_self _
  have key : ∀ i ≤ n, ((D i).1.ncols = X.ncols ∧ (D i).1.WF ∧ (D i).2.length = (D i).1.nrows ∧
      ((D i).1.rows.zip (D i).2).Perm (X.rows.zip y) ∧ (D i).1.nrows = X.nrows) ∧
      st i = List.ofFn (iterate (gradOf dphi lambda (X.rows.zip y)) eta w i) ∧
      ∀ k, i = k + 1 → L k = objective phi lambda (X.rows.zip y) (iterate (gradOf dphi lambda (X.rows.zip y)) eta w i) := by
    intro i
    induction i with
    | zero =>
      intro _
      refine ⟨?_, ?_, fun k hk => by omega⟩
      · rw [hD]
        exact ⟨rfl, hX, hy, List.Perm.refl _, rfl⟩
      · rw [hst]; rfl
    | succ i ih =>
      intro hi
      obtain ⟨⟨g1, g2, g3, g4, g5⟩, hsi, _⟩ := ih (by omega)
      obtain ⟨hsh, lr, hlr, t, l, ht0, ht1, hL, hstep⟩ := hrun i (by omega)
      rw [he i, Res.ok.injEq] at hlr
      subst hlr
      obtain ⟨⟨X2, y2⟩, hs, f1, f2, f3, f4, f5⟩ := C47_shuffle_pairs p.shuffle i (D i).1 g2 (D i).2 g3
        (fun q hq => by rw [g5]; exact hp q hq i)
      rw [hsh, Res.ok.injEq] at hs
      rw [hs] at hstep ⊢
      dsimp only at f1 f2 f3 f4 f5
      obtain ⟨nc, rows⟩ := X2
      dsimp only [DMat.nrows] at f1 f2 f3 f4 f5
      have hnc : nc = X.ncols := f1.trans g1
      subst hnc
      obtain ⟨_, _, hup, hev⟩ := hstep 0 (by omega)
      have hrl : rows.length = X.nrows := f5.trans g5
      have hbr : batch p.batchSize 0 rows = rows := by
        unfold batch
        rw [Nat.zero_mul, List.drop_zero, List.take_of_length_le (by rw [hrl, hb])]
      have hby : batch p.batchSize 0 y2 = y2 := by
        unfold batch
        rw [Nat.zero_mul, List.drop_zero, List.take_of_length_le (by rw [f3, hrl, hb])]
      dsimp only at hup hev
      rw [hbr, hby] at hup hev
      have hperm : (rows.zip y2).Perm (X.rows.zip y) := f4.trans g4
      rw [ht0, hsi] at hup
      unfold sgdStep at hup
      rw [hm.gradient ⟨X.ncols, rows⟩ f2 y2 f3, Res.bind_ok, gradOf_perm dphi lambda hperm, vanilla_move, Res.ok.injEq] at hup
      have hst' : st (i + 1) = List.ofFn (iterate (gradOf dphi lambda (X.rows.zip y)) eta w (i + 1)) := by
        rw [← ht1]; exact hup.symm
      refine ⟨⟨rfl, f2, f3, hperm, hrl⟩, hst', ?_⟩
      intro k hk
      obtain rfl : k = i := by omega
      rw [ht1, hst', id] at hev
      rw [hm.evaluate ⟨X.ncols, rows⟩ f2 y2 f3, Res.ok.injEq] at hev
      rw [hL, Finset.sum_range_one, ← hev, ← objective_perm phi lambda hperm]
      unfold objective
      rw [hperm.length_eq, hzl]
      unfold DMat.nrows
      rw [hrl]
      rfl
  exact ⟨fun i hi => (key i hi).2.1, fun i hi => (key (i + 1) hi).2.2 i rfl⟩

end Losses

end OpenML.Descent
