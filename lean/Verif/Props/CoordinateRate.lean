import Verif.Lemmas.Descent
import Verif.Props.LinearFit

/-!
# Rate of coordinate descent (C107)
-/

namespace OpenML

open Spec Loss SGD SCD LinearFit Descent
open scoped BigOperators

namespace CoordinateRate

section Abstract
variable {d : Nat}

/-- Objective with sum of absolute weights. -/
noncomputable def total (F : (Fin d → ℝ) → ℝ) (lambda : ℝ) (w : Fin d → ℝ) : ℝ := F w + lambda * ∑ j, |w j|

theorem abs_mix (x z a : ℝ) (h0 : 0 ≤ a) (h1 : a ≤ 1) : |x + a * (z - x)| ≤ |x| + a * (|z| - |x|) := by
  have : x + a * (z - x) = (1 - a) * x + a * z := by ring
  rw [this]
  refine (abs_add_le _ _).trans ?_
  rw [abs_mul, abs_mul, abs_of_nonneg h0, abs_of_nonneg (sub_nonneg.mpr h1)]
  linarith

/-- The best step of a single coordinate achieves at least the mean of what all coordinates achieve toward `u`. -/
theorem best_step (F : (Fin d → ℝ) → ℝ) (g : Fin d → ℝ) (beta lambda : ℝ) (hl : 0 ≤ lambda) (w : Fin d → ℝ)
    (hlow : ∀ u, F w + ∑ j, g j * (u j - w j) ≤ F u) (k : Fin d) (e : ℝ)
    (hup : F (Function.update w k (w k + e)) ≤ F w + e * g k + beta / 2 * e ^ 2)
    (hopt : ∀ j e', predictedChange beta lambda (w k) (g k) e ≤ predictedChange beta lambda (w j) (g j) e')
    (u : Fin d → ℝ) (a : ℝ) (h0 : 0 ≤ a) (h1 : a ≤ 1) :
    d * (total F lambda (Function.update w k (w k + e)) - total F lambda w) ≤
      a ^ 2 * (beta / 2) * ∑ j, (u j - w j) ^ 2 - a * (total F lambda w - total F lambda u) := by
  have habs : ∑ j, |Function.update w k (w k + e) j| = ∑ j, |w j| + (|w k + e| - |w k|) := by
    have : ∑ j, |Function.update w k (w k + e) j| - ∑ j, |w j| = |w k + e| - |w k| := by
      rw [← Finset.sum_sub_distrib, Finset.sum_eq_single k]
      · rw [Function.update_self]
      · intro j _ hj
        rw [Function.update_of_ne hj, sub_self]
      · intro hk
        exact absurd (Finset.mem_univ k) hk
    linarith
  have hstep : total F lambda (Function.update w k (w k + e)) - total F lambda w ≤ predictedChange beta lambda (w k) (g k) e := by
    unfold total predictedChange
    rw [habs]
    linarith
  have hsum : d * predictedChange beta lambda (w k) (g k) e ≤ ∑ j, predictedChange beta lambda (w j) (g j) (a * (u j - w j)) := by
    have := Finset.card_nsmul_le_sum Finset.univ (fun j => predictedChange beta lambda (w j) (g j) (a * (u j - w j)))
      (predictedChange beta lambda (w k) (g k) e) fun j _ => hopt j _
    simpa using this
  have hb : ∑ j, predictedChange beta lambda (w j) (g j) (a * (u j - w j)) ≤
      a * ∑ j, g j * (u j - w j) + a ^ 2 * (beta / 2) * ∑ j, (u j - w j) ^ 2 + lambda * (a * (∑ j, |u j| - ∑ j, |w j|)) := by
    rw [← Finset.sum_sub_distrib, Finset.mul_sum, Finset.mul_sum, Finset.mul_sum, Finset.mul_sum, ← Finset.sum_add_distrib,
      ← Finset.sum_add_distrib]
    refine Finset.sum_le_sum fun j _ => ?_
    have := mul_le_mul_of_nonneg_left (abs_mix (w j) (u j) a h0 h1) hl
    unfold predictedChange
    nlinarith
  have hd : (0 : ℝ) ≤ d := Nat.cast_nonneg d
  have h3 := mul_le_mul_of_nonneg_left hstep hd
  have h4 := mul_le_mul_of_nonneg_left (hlow u) h0
  unfold total at *
  nlinarith

/-- One step of the recurrence for the distance to the minimum. -/
theorem recurrence (C x x' t : ℝ) (hC : 0 < C) (hx : 0 ≤ x) (hxC : x ≤ C) (ht : 0 ≤ t) (h : t * x ≤ C) (hx' : x' ≤ x - x ^ 2 / C) :
    (t + 1) * x' ≤ C := by
  have h1 : (t + 1) * x' ≤ (t + 1) * (x - x ^ 2 / C) := mul_le_mul_of_nonneg_left hx' (by linarith)
  refine h1.trans ?_
  have h2 : (t + 1) * (x - x ^ 2 / C) = (t * x * C + x * (C - t * x) - x ^ 2) / C := by
    field_simp
    ring
  rw [h2, div_le_iff₀ hC]
  have h3 : x * (C - t * x) ≤ C * (C - t * x) := mul_le_mul_of_nonneg_right hxC (by linarith)
  nlinarith [sq_nonneg x]

/-- Weights whose objective does not exceed `p` have a sum of absolute values of at most `p / lambda`. -/
theorem abs_sum_le (F : (Fin d → ℝ) → ℝ) (lambda : ℝ) (hl : 0 < lambda) (hF : ∀ w, 0 ≤ F w) (w : Fin d → ℝ) (p : ℝ)
    (h : total F lambda w ≤ p) : ∑ j, |w j| ≤ p / lambda := by
  rw [le_div_iff₀ hl]
  have := hF w
  unfold total at h
  linarith

theorem sq_dist_le (u w : Fin d → ℝ) (r : ℝ) (hu : ∑ j, |u j| ≤ r) (hw : ∑ j, |w j| ≤ r) : ∑ j, (u j - w j) ^ 2 ≤ (2 * r) ^ 2 := by
  have h1 : ∑ j, |u j - w j| ≤ 2 * r := by
    have : ∑ j, |u j - w j| ≤ ∑ j, (|u j| + |w j|) := Finset.sum_le_sum fun j _ => abs_sub _ _
    rw [Finset.sum_add_distrib] at this
    linarith
  have h0 : 0 ≤ ∑ j, |u j - w j| := Finset.sum_nonneg fun j _ => abs_nonneg _
  have h2 : ∑ j, (u j - w j) ^ 2 ≤ (∑ j, |u j - w j|) ^ 2 := by
    have := Finset.sum_sq_le_sq_sum_of_nonneg (s := Finset.univ) (f := fun j => |u j - w j|) fun j _ => abs_nonneg _
    simpa [sq_abs] using this
  exact h2.trans (pow_le_pow_left₀ h0 h1 2)

/-- The constant of the rate. -/
noncomputable def const (d : Nat) (beta lambda p : ℝ) : ℝ := 2 * d * max p (beta * (2 * (p / lambda)) ^ 2)

theorem step_invariant (hd : 0 < d) (F : (Fin d → ℝ) → ℝ) (g : Fin d → ℝ) (beta lambda p : ℝ) (hl : 0 < lambda) (hb : 0 < beta)
    (hF : ∀ w, 0 ≤ F w) (w : Fin d → ℝ) (hlow : ∀ u, F w + ∑ j, g j * (u j - w j) ≤ F u) (k : Fin d) (e : ℝ)
    (hup : F (Function.update w k (w k + e)) ≤ F w + e * g k + beta / 2 * e ^ 2)
    (hopt : ∀ j e', predictedChange beta lambda (w k) (g k) e ≤ predictedChange beta lambda (w j) (g j) e') (t : Nat)
    (hp : total F lambda w ≤ p) (hinv : ∀ u, t * (total F lambda w - total F lambda u) ≤ const d beta lambda p) :
    total F lambda (Function.update w k (w k + e)) ≤ p ∧
      ∀ u, (t + 1 : ℕ) * (total F lambda (Function.update w k (w k + e)) - total F lambda u) ≤ const d beta lambda p := by
  have hdR : (1 : ℝ) ≤ d := by exact_mod_cast hd
  have hpos : ∀ v, 0 ≤ total F lambda v := fun v =>
    add_nonneg (hF v) (mul_nonneg hl.le (Finset.sum_nonneg fun j _ => abs_nonneg _))
  have hstep := best_step F g beta lambda hl.le w hlow k e hup hopt
  have hdec : total F lambda (Function.update w k (w k + e)) ≤ total F lambda w := by
    have := hstep w 0 (le_refl _) zero_le_one
    simp only [zero_pow (two_ne_zero), zero_mul, sub_zero] at this
    by_contra hc
    have : 0 < (d : ℝ) * (total F lambda (Function.update w k (w k + e)) - total F lambda w) :=
      mul_pos (by linarith) (by linarith)
    linarith
  refine ⟨hdec.trans hp, fun u => ?_⟩
  have hp0 : 0 ≤ p := (hpos w).trans hp
  have hC0 : 0 ≤ const d beta lambda p := by
    unfold const
    exact mul_nonneg (by linarith) (le_max_of_le_left hp0)
  rcases le_or_gt (total F lambda w) (total F lambda u) with hle | hgt
  · have : (t + 1 : ℕ) * (total F lambda (Function.update w k (w k + e)) - total F lambda u) ≤ 0 :=
      mul_nonpos_of_nonneg_of_nonpos (Nat.cast_nonneg _) (by linarith)
    linarith
  · set B := max p (beta * (2 * (p / lambda)) ^ 2) with hB
    set x := total F lambda w - total F lambda u with hx
    have hxpos : 0 < x := by linarith
    have hxB : x ≤ B := by
      have := hpos u
      have := le_max_left p (beta * (2 * (p / lambda)) ^ 2)
      linarith
    have hBpos : 0 < B := lt_of_lt_of_le hxpos hxB
    have hC : const d beta lambda p = 2 * d * B := rfl
    have hCpos : 0 < const d beta lambda p := by rw [hC]; positivity
    have h1 := hstep u (x / B) (by positivity) (by rw [div_le_one hBpos]; exact hxB)
    have hR := sq_dist_le u w (p / lambda) (abs_sum_le F lambda hl hF u p (by linarith)) (abs_sum_le F lambda hl hF w p hp)
    have hRB : beta * ∑ j, (u j - w j) ^ 2 ≤ B := (mul_le_mul_of_nonneg_left hR hb.le).trans (le_max_right _ _)
    have h2 : (x / B) ^ 2 * (beta / 2) * ∑ j, (u j - w j) ^ 2 ≤ x ^ 2 / (2 * B) := by
      have : (x / B) ^ 2 * (beta / 2) * ∑ j, (u j - w j) ^ 2 = (x / B) ^ 2 / 2 * (beta * ∑ j, (u j - w j) ^ 2) := by ring
      rw [this]
      refine (mul_le_mul_of_nonneg_left hRB (by positivity)).trans (le_of_eq ?_)
      field_simp
    have h3 : x / B * x = 2 * (x ^ 2 / (2 * B)) := by field_simp
    have h4 : d * (total F lambda (Function.update w k (w k + e)) - total F lambda w) ≤ -(x ^ 2 / (2 * B)) := by linarith
    have h5 : total F lambda (Function.update w k (w k + e)) - total F lambda u ≤ x - x ^ 2 / const d beta lambda p := by
      have h6 : x ^ 2 / (2 * B) = d * (x ^ 2 / const d beta lambda p) := by
        rw [hC]
        field_simp
      rw [h6, ← mul_neg] at h4
      have := le_of_mul_le_mul_left h4 (by linarith)
      linarith
    have h7 := recurrence (const d beta lambda p) x _ t hCpos hxpos.le (hxB.trans (by rw [hC]; nlinarith)) (Nat.cast_nonneg t)
      (hinv u) h5
    rw [Nat.cast_add, Nat.cast_one]
    exact h7

end Abstract

section Run

theorem scdLoop_inv (loss : LossFn ℝ (List ℝ)) (beta lambda : ℝ) (shuffle : Option (Nat → List Nat)) (P : DMat ℝ → List ℝ → Prop)
    (hshuf : ∀ iter X y, P X y → ∃ X' y', shuffleXY shuffle iter X y = .ok (X', y') ∧ P X' y') (I : Nat → List ℝ → Prop)
    (hstep : ∀ X y w t, P X y → I t w → ∃ w', scdStep loss beta lambda X y w = .ok w' ∧ I (t + 1) w')
    (n : Nat) (X : DMat ℝ) (y w : List ℝ) (t iter : Nat) (hP : P X y) (hI : I t w) :
    ∃ w', scdLoop loss beta lambda shuffle n iter X y w = .ok w' ∧ I (t + n) w' := by
  induction n generalizing iter X y w t with
  | zero => exact ⟨w, rfl, hI⟩
  | succ n ih =>
    obtain ⟨X', y', hs, hP'⟩ := hshuf iter X y hP
    obtain ⟨w1, h1, h1I⟩ := hstep X' y' w t hP' hI
    obtain ⟨w2, h2, h2I⟩ := ih X' y' w1 (t + 1) (iter + 1) hP' h1I
    refine ⟨w2, ?_, by rwa [show t + (n + 1) = t + 1 + n by omega]⟩
    simp only [scdLoop, hs, Res.bind_ok, h1]
    exact h2

/-- Upper bound of a mean loss along a coordinate. -/
theorem coord_upper {d : Nat} (phi dphi : ℝ → ℝ → ℝ) (c : ℝ)
    (hu : ∀ y s t, phi y t ≤ phi y s + dphi y s * (t - s) + c / 2 * (t - s) ^ 2) (mu : ℝ) (l : List (List ℝ × ℝ)) (hl : l.length ≠ 0)
    (w : Fin d → ℝ) (k : Fin d) (e : ℝ) :
    objective phi mu l (Function.update w k (w k + e)) ≤ objective phi mu l w + e * gradOf dphi mu l w k +
      (c * (l.map fun p => p.1.getD k 0 ^ 2).sum + mu) / l.length / 2 * e ^ 2 := by
  have hn : (0 : ℝ) < l.length := by positivity
  have h1 : ridgeTerm l.length (Function.update w k (w k + e)) = ridgeTerm l.length w + (2 * w k * e + e ^ 2) / (2 * l.length) := by
    have h : ∑ j, Function.update w k (w k + e) j ^ 2 - ∑ j, w j ^ 2 = 2 * w k * e + e ^ 2 := by
      rw [← Finset.sum_sub_distrib, Finset.sum_eq_single k]
      · rw [Function.update_self]
        ring
      · intro j _ hj
        rw [Function.update_of_ne hj, sub_self]
      · intro hk
        exact absurd (Finset.mem_univ k) hk
    unfold ridgeTerm
    rw [← h]
    ring
  have h2 : (l.map fun p => phi p.2 (score p.1 (Function.update w k (w k + e)))).sum ≤
      (l.map fun p => phi p.2 (score p.1 w)).sum + e * (l.map fun p => dphi p.2 (score p.1 w) * p.1.getD k 0).sum +
        e ^ 2 / 2 * (c * (l.map fun p => p.1.getD k 0 ^ 2).sum) := by
    clear hl hn h1
    induction l with
    | nil => simp
    | cons p l ih =>
      have h := hu p.2 (score p.1 w) (score p.1 (Function.update w k (w k + e)))
      have hsc : score p.1 (Function.update w k (w k + e)) - score p.1 w = e * p.1.getD k 0 := by rw [score_update]; ring
      rw [hsc] at h
      simp only [List.map_cons, List.sum_cons]
      nlinarith
  have h3 := div_le_div_of_nonneg_right h2 hn.le
  unfold objective meanLoss gradOf
  rw [h1]
  refine (add_le_add_left h3 _).trans (le_of_eq ?_)
  field_simp
  ring

theorem rate (loss : LossFn ℝ (List ℝ)) (phi dphi : ℝ → ℝ → ℝ) (mu c : ℝ) (hmu : 0 ≤ mu) (hm : IsMean loss phi dphi mu)
    (ht : ∀ y s t, phi y s + dphi y s * (t - s) ≤ phi y t)
    (hu : ∀ y s t, phi y t ≤ phi y s + dphi y s * (t - s) + c / 2 * (t - s) ^ 2) (beta lambda : ℝ) (hb : 0 < beta)
    (hl : 0 < lambda) (shuffle : Option (Nat → List Nat)) (n : Nat) (X : DMat ℝ) (hX : X.WF) (hn : X.nrows ≠ 0) (hd : 0 < X.ncols)
    (y : List ℝ) (hy : y.length = X.nrows) (hpos : ∀ a ∈ y, ∀ s, 0 ≤ phi a s)
    (hp : ∀ p, shuffle = some p → ∀ i, (p i).Perm (List.range X.nrows))
    (hcurv : ∀ j < X.ncols, (c * (X.rows.map fun r => r.getD j 0 ^ 2).sum + mu) / X.nrows ≤ beta)
    (w : List ℝ) (hw : w.length = X.ncols) :
    ∃ w' a b, scd loss beta lambda n shuffle X y w = .ok w' ∧ loss.evaluate X y w = .ok a ∧ loss.evaluate X y w' = .ok b ∧
      ∀ (u : List ℝ) (m : ℝ), u.length = X.ncols → loss.evaluate X y u = .ok m →
        n * ((b + lambda * l1Norm w') - (m + lambda * l1Norm u)) ≤ const X.ncols beta lambda (a + lambda * l1Norm w) := by
  have hzl : (X.rows.zip y).length = X.nrows := by
    rw [List.length_zip, hy]; exact Nat.min_self _
  have hcols : ∀ j, ((X.rows.zip y).map fun p => p.1.getD j 0 ^ 2).sum = (X.rows.map fun r => r.getD j 0 ^ 2).sum := by
    intro j
    have : (X.rows.zip y).map (fun p => p.1.getD j 0 ^ 2) = ((X.rows.zip y).map Prod.fst).map fun r => r.getD j 0 ^ 2 := by
      rw [List.map_map]; rfl
    rw [this, List.map_fst_zip (by rw [hy]; exact le_refl _)]
  have hl1 : ∀ f : Fin X.ncols → ℝ, l1Norm (List.ofFn f) = ∑ j, |f j| := by
    intro f
    rw [l1Norm, List.map_ofFn, List.sum_ofFn]
    rfl
  have hev : ∀ f : Fin X.ncols → ℝ, loss.evaluate X y (List.ofFn f) = .ok (objective phi mu (X.rows.zip y) f) := by
    intro f
    rw [hm.evaluate X hX y hy f, objective, hzl]
  obtain ⟨f, rfl⟩ := exists_ofFn w hw
  set F := objective (d := X.ncols) phi mu (X.rows.zip y) with hFdef
  have hF : ∀ v, 0 ≤ F v := objective_nonneg phi mu hmu _ fun q hq => hpos q.2 (List.of_mem_zip hq).2
  have hlow : ∀ v u, F v + ∑ j, gradOf dphi mu (X.rows.zip y) v j * (u j - v j) ≤ F u :=
    fun v u => meanLoss_tangent phi dphi ht mu hmu (X.rows.zip y) u v
  have hup : ∀ v k e, F (Function.update v k (v k + e)) ≤ F v + e * gradOf dphi mu (X.rows.zip y) v k + beta / 2 * e ^ 2 := by
    intro v k e
    have h1 := coord_upper phi dphi c hu mu (X.rows.zip y) (by rw [hzl]; exact hn) v k e
    rw [hcols, hzl] at h1
    have h2 := mul_le_mul_of_nonneg_right (div_le_div_of_nonneg_right (hcurv k k.2) (by norm_num : (0 : ℝ) ≤ 2)) (sq_nonneg e)
    linarith
  obtain ⟨w', hw', g, rfl, hg1, hg2⟩ := scdLoop_inv loss beta lambda shuffle
    (fun X' y' => X'.ncols = X.ncols ∧ X'.WF ∧ y'.length = X'.nrows ∧ (X'.rows.zip y').Perm (X.rows.zip y) ∧ X'.nrows = X.nrows)
    (by
      rintro iter X' y' ⟨hc, hwf, hyl, hperm, hnr⟩
      obtain ⟨⟨X2, y2⟩, hs, g1, g2, g3, g4, g5⟩ := C47_shuffle_pairs shuffle iter X' hwf y' hyl
        (fun p hps => by rw [hnr]; exact hp p hps iter)
      exact ⟨X2, y2, hs, g1.trans hc, g2, g3, g4.trans hperm, g5.trans hnr⟩)
    (fun t v => ∃ g : Fin X.ncols → ℝ, v = List.ofFn g ∧ total F lambda g ≤ total F lambda f ∧
      ∀ u, t * (total F lambda g - total F lambda u) ≤ const X.ncols beta lambda (total F lambda f))
    (by
      rintro ⟨nc, rows⟩ y' v t ⟨hc, hwf, hyl, hperm, hnr⟩ ⟨g, rfl, h1, h2⟩
      dsimp only at hc
      subst hc
      have hgrad := hm.gradient ⟨X.ncols, rows⟩ hwf y' hyl g
      dsimp only at hgrad
      rw [gradOf_perm dphi mu hperm] at hgrad
      obtain ⟨k, hk, e, he, _, hall, _⟩ := C51_step_optimal loss beta lambda hb hl.le ⟨X.ncols, rows⟩ y' (List.ofFn g) _ hgrad (by simp)
        (by simp) hd
      dsimp only at hk hall
      have hget : ∀ (q : Fin X.ncols → ℝ) j (hj : j < X.ncols), (List.ofFn q).getD j 0 = q ⟨j, hj⟩ := by
        intro q j hj
        simp [List.getD_eq_getElem?_getD, hj]
      have hinv := step_invariant hd F (gradOf dphi mu (X.rows.zip y) g) beta lambda (total F lambda f) hl hb hF g (hlow g) ⟨k, hk⟩ e
        (hup g ⟨k, hk⟩ e) (fun j e' => by
          have := hall j j.2 e'
          rw [hget _ k hk, hget _ k hk, hget _ j j.2, hget _ j j.2] at this
          exact this) t h1 h2
      refine ⟨_, he, _, ?_, hinv⟩
      rw [hget _ k hk]
      exact ofFn_set g ⟨k, hk⟩ _)
    n X y (List.ofFn f) 0 0 ⟨rfl, hX, hy, List.Perm.refl _, rfl⟩ ⟨f, rfl, le_refl _, fun u => by
      rw [Nat.cast_zero, zero_mul]
      unfold const
      refine mul_nonneg (by positivity) (le_max_of_le_left ?_)
      exact add_nonneg (hF f) (mul_nonneg hl.le (Finset.sum_nonneg fun j _ => abs_nonneg _))⟩
  refine ⟨_, _, _, hw', hev f, hev g, fun u m hul hum => ?_⟩
  obtain ⟨q, rfl⟩ := exists_ofFn u hul
  rw [hev q, Res.ok.injEq] at hum
  subst hum
  rw [hl1, hl1, hl1]
  have := hg2 q
  rw [Nat.zero_add] at this
  exact this

end Run

end CoordinateRate

/-- C107: `LassoRegression` without intercept: if the step constant is not below the mean square of any feature, the objective
(mean squared error plus `lambda` times the sum of absolute weights) of the fitted weights exceeds the objective of any other
weights by at most a constant divided by the number of iterations. The constant only depends on the number of features, the two
parameters and the loss with weights zero. -/
theorem C107_lasso (l1Ratio lambda : ℝ) (hb : 0 < l1Ratio) (hl : 0 < lambda) (shuffle : Option (Nat → List Nat)) (maxIter : Nat)
    (X : DMat ℝ) (hX : X.WF) (hn : X.nrows ≠ 0) (hd : 0 < X.ncols) (y : List ℝ) (hy : y.length = X.nrows)
    (hp : ∀ p, shuffle = some p → ∀ i, (p i).Perm (List.range X.nrows))
    (hcurv : ∀ j < X.ncols, (X.rows.map fun r => r.getD j 0 ^ 2).sum / X.nrows ≤ l1Ratio) :
    ∃ w a b, fitLasso false l1Ratio lambda maxIter shuffle X y = .ok w ∧ mseEvaluate 0 X y (List.replicate X.ncols 0) = .ok a ∧
      mseEvaluate 0 X y w = .ok b ∧ ∀ (u : List ℝ) (m : ℝ), u.length = X.ncols → mseEvaluate 0 X y u = .ok m →
        maxIter * ((b + lambda * l1Norm w) - (m + lambda * l1Norm u)) ≤ 2 * X.ncols * max a (l1Ratio * (2 * (a / lambda)) ^ 2) := by
  obtain ⟨w, a, b, h1, h2, h3, h4⟩ := CoordinateRate.rate ⟨mseEvaluate 0, mseGradient 0⟩ halfSquare (fun a s => s - a) 0 1 (le_refl _)
    (isMean_mse 0) halfSquare_tangent halfSquare_upper l1Ratio lambda hb hl shuffle maxIter X hX hn hd y hy
    (fun a _ s => by unfold halfSquare; positivity) hp (fun j hj => by rw [one_mul, add_zero]; exact hcurv j hj)
    (List.replicate X.ncols 0) (by simp)
  refine ⟨w, a, b, h1, h2, h3, fun u m hu hm => ?_⟩
  have := h4 u m hu hm
  rwa [show l1Norm (List.replicate X.ncols (0 : ℝ)) = 0 by simp [l1Norm], mul_zero, add_zero] at this

/-- C107: `LogisticRegression` with penalty "l1" (solver "scd") and labels between 0 and 1: the same for the log loss, from any
initial weights. -/
theorem C107_logistic (l1Ratio lambda : ℝ) (hb : 0 < l1Ratio) (hl : 0 < lambda) (p : Params ℝ)
    (lbfgs : LossFn ℝ (List ℝ) → DMat ℝ → List ℝ → List ℝ → Res (List ℝ)) (X : DMat ℝ) (hX : X.WF) (hn : X.nrows ≠ 0) (y : List ℝ)
    (hy : y.length = X.nrows) (hlab : ∀ a ∈ y, 0 ≤ a ∧ a ≤ 1)
    (hp : ∀ q, p.shuffle = some q → ∀ i, (q i).Perm (List.range X.nrows))
    (hcurv : ∀ j ≤ X.ncols, ((X.rows.map fun r => (r ++ [1]).getD j 0 ^ 2).sum / 4 + lambda) / X.nrows ≤ l1Ratio)
    (w : List ℝ) (hw : w.length = X.ncols + 1) :
    ∃ w' a b, fitLogistic lambda l1Ratio "l1" "scd" p lbfgs X y w = .ok w' ∧ logEvaluate lambda (withOnes X) y w = .ok a ∧
      logEvaluate lambda (withOnes X) y w' = .ok b ∧
      ∀ (u : List ℝ) (m : ℝ), u.length = X.ncols + 1 → logEvaluate lambda (withOnes X) y u = .ok m →
        p.maxIter * ((b + lambda * l1Norm w') - (m + lambda * l1Norm u)) ≤
          2 * (X.ncols + 1) * max (a + lambda * l1Norm w) (l1Ratio * (2 * ((a + lambda * l1Norm w) / lambda)) ^ 2) := by
  have hnr : (withOnes X).nrows = X.nrows := by simp [withOnes, DMat.nrows]
  obtain ⟨w', a, b, h1, h2, h3, h4⟩ := CoordinateRate.rate ⟨logEvaluate lambda, logGradient lambda⟩ crossEntropy
    (fun a s => Real.sigmoid s - a) lambda (1 / 4) hl.le (isMean_log lambda) crossEntropy_tangent crossEntropy_upper l1Ratio lambda hb hl
    p.shuffle p.maxIter (withOnes X) (withOnes_wf X hX) (by rw [hnr]; exact hn) (Nat.succ_pos _) y (by rw [hnr]; exact hy)
    (fun a ha s => crossEntropy_nonneg a s (hlab a ha).1 (hlab a ha).2) (by rw [hnr]; exact hp)
    (fun j hj => by
      have := hcurv j (Nat.lt_succ_iff.mp hj)
      rw [hnr]
      refine le_trans (le_of_eq ?_) this
      simp only [withOnes, List.map_map]
      rw [one_div, inv_mul_eq_div]
      rfl) w hw
  refine ⟨w', a, b, ?_, h2, h3, fun u m hu hm => ?_⟩
  · unfold fitLogistic
    dsimp only
    rw [if_neg (by decide), if_pos rfl, if_pos rfl]
    exact h1
  · have := h4 u m hu hm
    simpa [CoordinateRate.const, withOnes] using this

/-- Example for C107: the data of the example for C51; the mean squares of the features are 1 and 1/2, the loss with weights zero
is 9/2. After one iteration the smallest objective 1/8 + 5/4 is reached. -/
example : fitLasso false (1 : ℚ) (1 / 2) 1 none ⟨2, [[1, 0], [-1, 1]]⟩ [3, -3] = .ok [5 / 2, 0] ∧
    Loss.mseEvaluate (0 : ℚ) ⟨2, [[1, 0], [-1, 1]]⟩ [3, -3] [0, 0] = .ok (9 / 2) := by decide +kernel

/-- Example for the curvature in `C107_logistic`: one feature with values 1 and -1, `lambda` 1. -/
example : ∀ j ≤ 1, ((([[1], [-1]] : List (List ℝ)).map fun r => (r ++ [1]).getD j 0 ^ 2).sum / 4 + 1) / 2 ≤ 1 := by
  intro j hj
  obtain rfl | rfl : j = 0 ∨ j = 1 := by omega
  · norm_num
  · norm_num

end OpenML
