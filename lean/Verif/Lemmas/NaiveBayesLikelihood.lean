import Verif.Spec.NaiveBayesLikelihood
import Verif.Spec.Stats
import Mathlib.Analysis.SpecialFunctions.Log.Basic
import Mathlib.Algebra.BigOperators.Field
import Mathlib.Tactic.Linarith
import Mathlib.Tactic.FieldSimp
import Mathlib.Tactic.Positivity

/-!
# Lemmas on maximal likelihood
-/

namespace OpenML.Likelihood

open Spec

/-- Gibbs' inequality, with the case of equality. -/
theorem gibbs {ι : Type} (s : Finset ι) (a q : ι → ℝ) (ha : ∀ i ∈ s, 0 < a i) (hq : ∀ i ∈ s, 0 < q i) (hs : s.Nonempty)
    (h1 : ∑ i ∈ s, q i ≤ 1) :
    ∑ i ∈ s, a i * Real.log (q i) ≤ ∑ i ∈ s, a i * Real.log (a i / ∑ k ∈ s, a k) ∧
      (∑ i ∈ s, a i * Real.log (q i) = ∑ i ∈ s, a i * Real.log (a i / ∑ k ∈ s, a k) → ∀ i ∈ s, q i = a i / ∑ k ∈ s, a k) := by
  set S := ∑ k ∈ s, a k with hS
  have hS0 : 0 < S := Finset.sum_pos ha hs
  have term : ∀ i ∈ s, a i * Real.log (q i) ≤ a i * Real.log (a i / S) + (S * q i - a i) := by
    intro i hi
    have h := Real.log_le_sub_one_of_pos (show 0 < q i / (a i / S) from div_pos (hq i hi) (div_pos (ha i hi) hS0))
    rw [Real.log_div (hq i hi).ne' (div_pos (ha i hi) hS0).ne'] at h
    have := mul_le_mul_of_nonneg_left h (ha i hi).le
    have e : a i * (q i / (a i / S) - 1) = S * q i - a i := by
      have := (ha i hi).ne'
      field_simp
    linarith
  have tot : ∑ i ∈ s, (a i * Real.log (a i / S) + (S * q i - a i)) ≤ ∑ i ∈ s, a i * Real.log (a i / S) := by
    rw [Finset.sum_add_distrib, Finset.sum_sub_distrib, ← Finset.mul_sum, ← hS]
    nlinarith
  refine ⟨(Finset.sum_le_sum term).trans tot, fun he i hi => ?_⟩
  by_contra hne
  have hlt : a i * Real.log (q i) < a i * Real.log (a i / S) + (S * q i - a i) := by
    have hr : q i / (a i / S) ≠ 1 := fun h => hne ((div_eq_one_iff_eq (div_pos (ha i hi) hS0).ne').mp h)
    have h := Real.log_lt_sub_one_of_pos (show 0 < q i / (a i / S) from div_pos (hq i hi) (div_pos (ha i hi) hS0)) hr
    rw [Real.log_div (hq i hi).ne' (div_pos (ha i hi) hS0).ne'] at h
    have := mul_lt_mul_of_pos_left h (ha i hi)
    have e : a i * (q i / (a i / S) - 1) = S * q i - a i := by
      have := (ha i hi).ne'
      field_simp
    linarith
  have := Finset.sum_lt_sum term ⟨i, hi, hlt⟩
  linarith

/-- Squared deviations from any point. -/
theorem sum_sq_dev (l : List ℝ) (m : ℝ) (hl : l ≠ []) :
    (l.map fun x => (x - m) ^ 2).sum = l.length * (meanSquaredDeviation l + (average l - m) ^ 2) := by
  have hn : (l.length : ℝ) ≠ 0 := by
    have := List.length_pos_of_ne_nil hl
    positivity
  have gen : ∀ (k : List ℝ) (c : ℝ), (k.map fun x => (x - m) ^ 2).sum =
      (k.map fun x => (x - c) ^ 2).sum + 2 * (c - m) * (k.sum - k.length * c) + k.length * (c - m) ^ 2 := by
    intro k c
    induction k with
    | nil => simp
    | cons x k ih =>
      simp only [List.map_cons, List.sum_cons, List.length_cons, Nat.cast_add, Nat.cast_one, ih]
      ring
  rw [gen l (average l)]
  have h1 : l.sum - l.length * average l = 0 := by
    unfold average
    field_simp
    ring
  have h2 : (l.map fun x => (x - average l) ^ 2).sum = l.length * meanSquaredDeviation l := by
    unfold meanSquaredDeviation
    rw [show average (l.map fun a => (a - average l) ^ 2) = (l.map fun a => (a - average l) ^ 2).sum / (l.length : ℝ) by
      rw [average, List.length_map]]
    field_simp
  rw [h1, h2]
  ring

theorem log_normalPdf (m v x : ℝ) (hv : 0 < v) :
    Real.log (normalPdf m v x) = -(1 / 2) * Real.log (2 * Real.pi * v) - (x - m) ^ 2 / (2 * v) := by
  have hp : 0 < 2 * Real.pi * v := by positivity
  unfold normalPdf
  rw [Real.log_mul (by positivity) (Real.exp_pos _).ne', Real.log_exp, one_div, Real.log_inv, Real.log_sqrt hp.le]
  ring

/-- One feature: the mean and the mean squared deviation have the largest likelihood. -/
theorem normal_best (l : List ℝ) (hl : l ≠ []) (hs : 0 < meanSquaredDeviation l) (m v : ℝ) (hv : 0 < v) :
    (l.map fun x => Real.log (normalPdf m v x)).sum ≤
      (l.map fun x => Real.log (normalPdf (average l) (meanSquaredDeviation l) x)).sum ∧
    ((l.map fun x => Real.log (normalPdf m v x)).sum =
      (l.map fun x => Real.log (normalPdf (average l) (meanSquaredDeviation l) x)).sum → m = average l ∧ v = meanSquaredDeviation l) := by
  have hn : (0 : ℝ) < l.length := by
    have := List.length_pos_of_ne_nil hl
    positivity
  have val : ∀ m v : ℝ, 0 < v → (l.map fun x => Real.log (normalPdf m v x)).sum =
      -(l.length / 2) * (Real.log (2 * Real.pi * v) + (meanSquaredDeviation l + (average l - m) ^ 2) / v) := by
    intro m v hv
    have e : ∀ k : List ℝ, (k.map fun x => Real.log (normalPdf m v x)).sum =
        -(k.length / 2) * Real.log (2 * Real.pi * v) - (k.map fun x => (x - m) ^ 2).sum / (2 * v) := by
      intro k
      induction k with
      | nil => simp
      | cons x k ih =>
        simp only [List.map_cons, List.sum_cons, List.length_cons, Nat.cast_add, Nat.cast_one, ih, log_normalPdf m v x hv]
        ring
    rw [e, sum_sq_dev l m hl]
    field_simp
    ring
  rw [val m v hv, val _ _ hs, sub_self, zero_pow two_ne_zero, add_zero, div_self hs.ne']
  set s := meanSquaredDeviation l
  have hlog : Real.log (2 * Real.pi * s) = Real.log (2 * Real.pi * v) + Real.log (s / v) := by
    rw [← Real.log_mul (by positivity) (by positivity)]
    congr 1
    field_simp
  have h1 := Real.log_le_sub_one_of_pos (show 0 < s / v by positivity)
  have h2 : 0 ≤ (average l - m) ^ 2 / v := by positivity
  have h3 : (s + (average l - m) ^ 2) / v = s / v + (average l - m) ^ 2 / v := by ring
  rw [h3, hlog]
  refine ⟨?_, fun he => ?_⟩
  · have : Real.log (2 * Real.pi * v) + Real.log (s / v) + 1 ≤ Real.log (2 * Real.pi * v) + (s / v + (average l - m) ^ 2 / v) := by linarith
    nlinarith
  · have he' : Real.log (2 * Real.pi * v) + (s / v + (average l - m) ^ 2 / v) = Real.log (2 * Real.pi * v) + Real.log (s / v) + 1 :=
      mul_left_cancel₀ (by linarith : -((l.length : ℝ) / 2) ≠ 0) he
    have hm : (average l - m) ^ 2 / v = 0 := by linarith
    rw [div_eq_zero_iff, or_iff_left hv.ne', sq_eq_zero_iff, sub_eq_zero] at hm
    refine ⟨hm.symm, ?_⟩
    by_contra hne
    have hr : s / v ≠ 1 := fun h => hne ((div_eq_one_iff_eq hv.ne').mp h).symm
    have := Real.log_lt_sub_one_of_pos (show 0 < s / v by positivity) hr
    linarith

theorem log_prod_pos (l : List ℝ) (h : ∀ a ∈ l, 0 < a) : 0 < l.prod ∧ Real.log l.prod = (l.map Real.log).sum := by
  induction l with
  | nil => simp
  | cons a l ih =>
    obtain ⟨h1, h2⟩ := ih fun b hb => h b (List.mem_cons_of_mem _ hb)
    have ha := h a (List.mem_cons_self ..)
    rw [List.prod_cons, List.map_cons, List.sum_cons, Real.log_mul ha.ne' h1.ne', h2]
    exact ⟨mul_pos ha h1, rfl⟩

theorem sum_swap (rows : List (List ℝ)) (d : Nat) (g : Nat → List ℝ → ℝ) :
    (rows.map fun x => ∑ f ∈ Finset.range d, g f x).sum = ∑ f ∈ Finset.range d, (rows.map (g f)).sum := by
  induction rows with
  | nil => simp
  | cons x rows ih => simp only [List.map_cons, List.sum_cons, ih, Finset.sum_add_distrib]

theorem zipWith_sum {β : Type} (g : β → ℝ → ℝ) (c : β) : ∀ (d : Nat) (p : List β) (x : List ℝ), p.length = d → x.length = d →
    (List.zipWith g p x).sum = ∑ f ∈ Finset.range d, g (p.getD f c) (x.getD f 0)
  | 0, [], [], _, _ => by simp
  | d + 1, b :: p, a :: x, hp, hx => by
    rw [List.zipWith_cons_cons, List.sum_cons, zipWith_sum g c d p x (by simpa using hp) (by simpa using hx), Finset.sum_range_succ']
    simp [add_comm]

end OpenML.Likelihood
