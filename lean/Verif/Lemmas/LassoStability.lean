import Verif.Spec.LassoStability
import Verif.Spec.SGD
import Verif.Lemmas.Descent
import Verif.Lemmas.LogisticMinimum

/-!
# Lemmas on near minima of objectives with sums of absolute weights
-/

namespace OpenML.LassoStability

open Spec Loss LogisticMinimum

variable {d : Nat}

/-- The sum of the losses. -/
noncomputable def lossSum (rows : List (List ℝ)) (y : List ℝ) (w : Fin d → ℝ) : ℝ :=
  ((rows.zip y).map fun p => halfSquare p.2 (score p.1 w)).sum

/-- Part of the way from `v` to `w`. -/
def mix (t : ℝ) (v w : Fin d → ℝ) : Fin d → ℝ := (1 - t) • v + t • w

theorem score_mix (t : ℝ) (x : List ℝ) (v w : Fin d → ℝ) : score x (mix t v w) = (1 - t) * score x v + t * score x w := by
  rw [mix, score_add, score_smul, score_smul]

theorem exchange (t : ℝ) (h1 : t < 1) (h0 : 0 ≤ t) (v w : Fin d → ℝ) : ∀ (rows : List (List ℝ)) (y z : List ℝ),
    y.length = rows.length → z.length = rows.length →
    t * (1 - t) / 2 * sqDist (rows.map fun r => score r v) (rows.map fun r => score r w) - t / (2 * (1 - t)) * sqDist y z ≤
      lossSum rows y v + lossSum rows z w - lossSum rows y (mix t v w) - lossSum rows z (mix t w v)
  | [], [], [], _, _ => by simp [sqDist, lossSum]
  | r :: rows, a :: y, b :: z, hy, hz => by
    have ih := exchange t h1 h0 v w rows y z (by simpa using hy) (by simpa using hz)
    have hp : (0 : ℝ) < 1 - t := by linarith
    simp only [sqDist, lossSum, List.map_cons, List.zipWith_cons_cons, List.zip_cons_cons, List.sum_cons, halfSquare, score_mix] at ih ⊢
    generalize score r v = p
    generalize score r w = q
    have key : t * (1 - t) / 2 * (p - q) ^ 2 - t / (2 * (1 - t)) * (a - b) ^ 2 ≤
        (a - p) ^ 2 / 2 + (b - q) ^ 2 / 2 - (a - ((1 - t) * p + t * q)) ^ 2 / 2 - (b - ((1 - t) * q + t * p)) ^ 2 / 2 := by
      have e : (a - p) ^ 2 / 2 + (b - q) ^ 2 / 2 - (a - ((1 - t) * p + t * q)) ^ 2 / 2 - (b - ((1 - t) * q + t * p)) ^ 2 / 2 -
          (t * (1 - t) / 2 * (p - q) ^ 2 - t / (2 * (1 - t)) * (a - b) ^ 2) =
          t / (2 * (1 - t)) * ((1 - t) * (p - q) - (a - b)) ^ 2 := by
        field_simp
        ring
      have := mul_nonneg (div_nonneg h0 (by linarith : (0 : ℝ) ≤ 2 * (1 - t))) (sq_nonneg ((1 - t) * (p - q) - (a - b)))
      linarith
    linarith
  | [], _ :: _, _, hy, _ => by simp at hy
  | [], [], _ :: _, _, hz => by simp at hz
  | _ :: _, [], _, hy, _ => by simp at hy
  | _ :: _, _ :: _, [], _, hz => by simp at hz

theorem middle (v w : Fin d → ℝ) : ∀ (rows : List (List ℝ)) (y : List ℝ), y.length = rows.length →
    1 / 4 * sqDist (rows.map fun r => score r v) (rows.map fun r => score r w) =
      lossSum rows y v + lossSum rows y w - 2 * lossSum rows y (mix (1 / 2) v w)
  | [], [], _ => by simp [sqDist, lossSum]
  | r :: rows, a :: y, hy => by
    have ih := middle v w rows y (by simpa using hy)
    simp only [sqDist, lossSum, List.map_cons, List.zipWith_cons_cons, List.zip_cons_cons, List.sum_cons, halfSquare, score_mix] at ih ⊢
    linarith
  | [], _ :: _, hy => by simp at hy
  | _ :: _, [], hy => by simp at hy

theorem abs_mix (t : ℝ) (h0 : 0 ≤ t) (h1 : t ≤ 1) (v w : Fin d → ℝ) :
    ∑ j, |mix t v w j| ≤ (1 - t) * ∑ j, |v j| + t * ∑ j, |w j| := by
  rw [Finset.mul_sum, Finset.mul_sum, ← Finset.sum_add_distrib]
  refine Finset.sum_le_sum fun j _ => ?_
  simp only [mix, Pi.add_apply, Pi.smul_apply, smul_eq_mul]
  refine (abs_add_le _ _).trans ?_
  rw [abs_mul, abs_mul, abs_of_nonneg h0, abs_of_nonneg (sub_nonneg.mpr h1)]

theorem sum_ofFn_abs (w : Fin d → ℝ) : l1Norm (List.ofFn w) = ∑ j, |w j| := by
  simp [l1Norm, List.map_ofFn, List.sum_ofFn]

/-- Near minima for two lists of targets have near scores. -/
theorem near (rows : List (List ℝ)) (hn : rows.length ≠ 0) (y z : List ℝ) (hy : y.length = rows.length) (hz : z.length = rows.length)
    (lambda : ℝ) (hl : 0 ≤ lambda) (t : ℝ) (h0 : 0 < t) (h1 : t < 1) (v w : Fin d → ℝ) (e e' : ℝ)
    (hv : ∀ u : Fin d → ℝ, lossSum rows y v / rows.length + lambda * ∑ j, |v j| ≤
      lossSum rows y u / rows.length + lambda * ∑ j, |u j| + e)
    (hw : ∀ u : Fin d → ℝ, lossSum rows z w / rows.length + lambda * ∑ j, |w j| ≤
      lossSum rows z u / rows.length + lambda * ∑ j, |u j| + e') :
    sqDist (rows.map fun r => score r v) (rows.map fun r => score r w) / rows.length ≤
      sqDist y z / rows.length / (1 - t) ^ 2 + 2 * (e + e') / (t * (1 - t)) := by
  have hp : (0 : ℝ) < 1 - t := by linarith
  have hpos : (0 : ℝ) < rows.length := by positivity
  have a := exchange t h1 h0.le v w rows y z hy hz
  have b := hv (mix t v w)
  have c := hw (mix t w v)
  have m1 := mul_le_mul_of_nonneg_left (abs_mix t h0.le h1.le v w) hl
  have m2 := mul_le_mul_of_nonneg_left (abs_mix t h0.le h1.le w v) hl
  have a' := div_le_div_of_nonneg_right a hpos.le
  simp only [sub_div, add_div, mul_div_assoc] at a'
  have s : t * ((1 - t) / 2) * (sqDist (rows.map fun r => score r v) (rows.map fun r => score r w) / rows.length) ≤
      t / (2 * (1 - t)) * (sqDist y z / rows.length) + (e + e') := by
    linarith
  generalize sqDist (rows.map fun r => score r v) (rows.map fun r => score r w) / rows.length = S at s ⊢
  generalize sqDist y z / rows.length = T at s ⊢
  have hc : 0 < 2 / (t * (1 - t)) := by positivity
  have := mul_le_mul_of_nonneg_left s hc.le
  have e1 : 2 / (t * (1 - t)) * (t * ((1 - t) / 2) * S) = S := by field_simp
  have e2 : 2 / (t * (1 - t)) * (t / (2 * (1 - t)) * T + (e + e')) = T / (1 - t) ^ 2 + 2 * (e + e') / (t * (1 - t)) := by field_simp
  rw [e1, e2] at this
  exact this

/-- Near minima for the same targets. -/
theorem near_same (rows : List (List ℝ)) (hn : rows.length ≠ 0) (y : List ℝ) (hy : y.length = rows.length)
    (lambda : ℝ) (hl : 0 ≤ lambda) (v w : Fin d → ℝ) (e e' : ℝ)
    (hv : ∀ u : Fin d → ℝ, lossSum rows y v / rows.length + lambda * ∑ j, |v j| ≤
      lossSum rows y u / rows.length + lambda * ∑ j, |u j| + e)
    (hw : ∀ u : Fin d → ℝ, lossSum rows y w / rows.length + lambda * ∑ j, |w j| ≤
      lossSum rows y u / rows.length + lambda * ∑ j, |u j| + e') :
    sqDist (rows.map fun r => score r v) (rows.map fun r => score r w) / rows.length ≤ 4 * (e + e') := by
  have hpos : (0 : ℝ) < rows.length := by positivity
  have a := middle v w rows y hy
  have b := hv (mix (1 / 2) v w)
  have c := hw (mix (1 / 2) v w)
  have m := mul_le_mul_of_nonneg_left (abs_mix (1 / 2) (by norm_num) (by norm_num) v w) hl
  have a' := congrArg (· / (rows.length : ℝ)) a
  simp only [sub_div, add_div, mul_div_assoc] at a'
  linarith

/-- A loss with ridge term lies below its chord in the middle by a multiple of the squared distance. -/
theorem strong_middle (phi dphi : ℝ → ℝ → ℝ) (ht : ∀ y s t, phi y s + dphi y s * (t - s) ≤ phi y t) (mu : ℝ)
    (l : List (List ℝ × ℝ)) (v w : Fin d → ℝ) :
    2 * (meanLoss phi l (mix (1 / 2) v w) + mu * ridgeTerm l.length (mix (1 / 2) v w)) + mu / (4 * l.length) * ∑ j, (v j - w j) ^ 2 ≤
      (meanLoss phi l v + mu * ridgeTerm l.length v) + (meanLoss phi l w + mu * ridgeTerm l.length w) := by
  have a := strong_tangent phi dphi ht mu l v (mix (1 / 2) v w)
  have b := strong_tangent phi dphi ht mu l w (mix (1 / 2) v w)
  have ev : ∀ j, v j - mix (1 / 2) v w j = (v j - w j) / 2 := fun j => by
    simp only [mix, Pi.add_apply, Pi.smul_apply, smul_eq_mul]
    ring
  have ew : ∀ j, w j - mix (1 / 2) v w j = -((v j - w j) / 2) := fun j => by
    simp only [mix, Pi.add_apply, Pi.smul_apply, smul_eq_mul]
    ring
  simp only [ev, ew] at a b
  have s1 : ∑ j, gradOf dphi mu l (mix (1 / 2) v w) j * -((v j - w j) / 2) =
      -∑ j, gradOf dphi mu l (mix (1 / 2) v w) j * ((v j - w j) / 2) := by
    rw [← Finset.sum_neg_distrib]
    exact Finset.sum_congr rfl fun j _ => by ring
  have s2 : ∑ j, ((v j - w j) / 2) ^ 2 = (∑ j, (v j - w j) ^ 2) / 4 := by
    rw [Finset.sum_div]
    exact Finset.sum_congr rfl fun j _ => by ring
  have s3 : ∑ j, (-((v j - w j) / 2)) ^ 2 = (∑ j, (v j - w j) ^ 2) / 4 := by
    rw [Finset.sum_div]
    exact Finset.sum_congr rfl fun j _ => by ring
  rw [s1, s3] at b
  rw [s2] at a
  have e : mu / (4 * l.length) * ∑ j, (v j - w j) ^ 2 = 2 * (mu / (2 * l.length) * ((∑ j, (v j - w j) ^ 2) / 4)) := by
    ring
  rw [e]
  linarith

theorem sqDist_ofFn (v w : Fin d → ℝ) : sqDist (List.ofFn v) (List.ofFn w) = ∑ j, (v j - w j) ^ 2 := by
  unfold sqDist
  rw [← List.sum_ofFn]
  congr 1
  refine List.ext_getElem (by simp) fun i h1 h2 => by simp

end OpenML.LassoStability
