import Verif.Lemmas.SGD
import Mathlib.Tactic.FieldSimp
import Mathlib.Tactic.LinearCombination

/-!
# Lemmas about coordinate descent
-/

namespace OpenML.SCD

open SGD

set_option linter.unusedSectionVars false

variable {α : Type} [Field α] [LinearOrder α] [IsStrictOrderedRing α]

/-- The quadratic model grows around the chosen step. -/
theorem model_growth (beta lambda x g e : α) (hb : 0 < beta) (hl : 0 ≤ lambda) :
    eta beta lambda x g * g + beta / 2 * eta beta lambda x g ^ 2 + lambda * |x + eta beta lambda x g| +
        beta / 2 * (e - eta beta lambda x g) ^ 2 ≤ e * g + beta / 2 * e ^ 2 + lambda * |x + e| := by
  have hb' : beta ≠ 0 := hb.ne'
  unfold eta
  split <;> rename_i h1
  · have hpos : 0 < x + (-g / beta - lambda / beta) := by
      have : x + (-g / beta - lambda / beta) = x - g / beta - lambda / beta := by ring
      rw [this]
      linarith
    rw [abs_of_pos hpos]
    have hle : lambda * (x + e) ≤ lambda * |x + e| := mul_le_mul_of_nonneg_left (le_abs_self _) hl
    have key : (-g / beta - lambda / beta) * g + beta / 2 * (-g / beta - lambda / beta) ^ 2 +
        lambda * (x + (-g / beta - lambda / beta)) + beta / 2 * (e - (-g / beta - lambda / beta)) ^ 2 =
        e * g + beta / 2 * e ^ 2 + lambda * (x + e) := by
      field_simp
      ring
    linarith
  · split <;> rename_i h2
    · have hneg : x + (-g / beta + lambda / beta) < 0 := by
        have : x + (-g / beta + lambda / beta) = x - g / beta - (-lambda / beta) := by ring
        rw [this]
        linarith
      rw [abs_of_neg hneg]
      have hle : lambda * (-(x + e)) ≤ lambda * |x + e| := mul_le_mul_of_nonneg_left (neg_le_abs _) hl
      have key : (-g / beta + lambda / beta) * g + beta / 2 * (-g / beta + lambda / beta) ^ 2 +
          lambda * (-(x + (-g / beta + lambda / beta))) + beta / 2 * (e - (-g / beta + lambda / beta)) ^ 2 =
          e * g + beta / 2 * e ^ 2 + lambda * (-(x + e)) := by
        field_simp
        ring
      linarith
    · have h1' : beta * x - g ≤ lambda := by
        have := mul_le_mul_of_nonneg_left (not_lt.mp h1) hb.le
        rw [mul_sub, mul_div_cancel₀ _ hb', mul_div_cancel₀ _ hb'] at this
        exact this
      have h2' : -lambda ≤ beta * x - g := by
        have := mul_le_mul_of_nonneg_left (not_lt.mp h2) hb.le
        rw [mul_sub, mul_div_cancel₀ _ hb', mul_div_cancel₀ _ hb'] at this
        exact this
      have hz : (beta * x - g) * (x + e) ≤ lambda * |x + e| := by
        calc (beta * x - g) * (x + e) ≤ |(beta * x - g) * (x + e)| := le_abs_self _
          _ = |beta * x - g| * |x + e| := abs_mul _ _
          _ ≤ lambda * |x + e| := mul_le_mul_of_nonneg_right (abs_le.mpr ⟨h2', h1'⟩) (abs_nonneg _)
      have h0 : |x + -x| = 0 := by rw [add_neg_cancel, abs_zero]
      rw [h0]
      have key : -x * g + beta / 2 * (-x) ^ 2 + lambda * 0 + beta / 2 * (e - -x) ^ 2 =
          e * g + beta / 2 * e ^ 2 + (beta * x - g) * (x + e) := by ring
      linarith

theorem predDescent_eq (beta lambda x g e : α) :
    predDescent beta lambda x g e = lambda * |x| - (e * g + beta / 2 * e ^ 2 + lambda * |x + e|) := by
  unfold predDescent
  ring

theorem predDescent_le (beta lambda x g e : α) (hb : 0 < beta) (hl : 0 ≤ lambda) :
    predDescent beta lambda x g e ≤ predDescent beta lambda x g (eta beta lambda x g) := by
  rw [predDescent_eq, predDescent_eq]
  have h := model_growth beta lambda x g e hb hl
  have : 0 ≤ beta / 2 * (e - eta beta lambda x g) ^ 2 := mul_nonneg (by linarith) (sq_nonneg _)
  linarith

theorem predDescent_zero (beta lambda x g : α) : predDescent beta lambda x g 0 = 0 := by
  rw [predDescent_eq]
  simp

theorem bestCoord_spec (beta lambda : α) (xs gs : List α) (hlen : xs.length = gs.length) (i0 : Nat) (b : α × Nat × α) :
    (bestCoord beta lambda xs gs i0 b = b ∧ ∀ j < xs.length,
        predDescent beta lambda (xs.getD j 0) (gs.getD j 0) (eta beta lambda (xs.getD j 0) (gs.getD j 0)) ≤ b.1) ∨
    ∃ k < xs.length, bestCoord beta lambda xs gs i0 b =
        (predDescent beta lambda (xs.getD k 0) (gs.getD k 0) (eta beta lambda (xs.getD k 0) (gs.getD k 0)), i0 + k,
          eta beta lambda (xs.getD k 0) (gs.getD k 0)) ∧
      b.1 < predDescent beta lambda (xs.getD k 0) (gs.getD k 0) (eta beta lambda (xs.getD k 0) (gs.getD k 0)) ∧
      (∀ j < xs.length, predDescent beta lambda (xs.getD j 0) (gs.getD j 0) (eta beta lambda (xs.getD j 0) (gs.getD j 0)) ≤
        predDescent beta lambda (xs.getD k 0) (gs.getD k 0) (eta beta lambda (xs.getD k 0) (gs.getD k 0))) ∧
      ∀ j < k, predDescent beta lambda (xs.getD j 0) (gs.getD j 0) (eta beta lambda (xs.getD j 0) (gs.getD j 0)) <
        predDescent beta lambda (xs.getD k 0) (gs.getD k 0) (eta beta lambda (xs.getD k 0) (gs.getD k 0)) := by
  induction xs generalizing gs i0 b with
  | nil =>
    refine Or.inl ⟨?_, fun j hj => by simp at hj⟩
    cases gs <;> rfl
  | cons x xs ih =>
    cases gs with
    | nil => simp at hlen
    | cons g gs =>
      have hlen' : xs.length = gs.length := by simpa using hlen
      set d := predDescent beta lambda x g (eta beta lambda x g) with hd
      have hrec : bestCoord beta lambda (x :: xs) (g :: gs) i0 b =
          bestCoord beta lambda xs gs (i0 + 1) (if d > b.1 then (d, i0, eta beta lambda x g) else b) := rfl
      rw [hrec]
      by_cases hgt : d > b.1
      · rw [if_pos hgt]
        rcases ih gs hlen' (i0 + 1) (d, i0, eta beta lambda x g) with ⟨he, hall⟩ | ⟨k, hk, he, hlt, hall, hfirst⟩
        · refine Or.inr ⟨0, by simp, ?_, hgt, fun j hj => ?_, fun j hj => by omega⟩
          · rw [he]; rfl
          · cases j with
            | zero => exact le_refl _
            | succ j => simpa using hall j (by simpa using hj)
        · refine Or.inr ⟨k + 1, by simpa using hk, ?_, ?_, fun j hj => ?_, fun j hj => ?_⟩
          · rw [he, show i0 + (k + 1) = i0 + 1 + k by omega]
            simp
          · have := hgt.trans hlt
            simpa using this
          · cases j with
            | zero => simpa using hlt.le
            | succ j => simpa using hall j (by simpa using hj)
          · cases j with
            | zero => simpa using hlt
            | succ j => simpa using hfirst j (by omega)
      · rw [if_neg hgt]
        have hle : d ≤ b.1 := not_lt.mp hgt
        rcases ih gs hlen' (i0 + 1) b with ⟨he, hall⟩ | ⟨k, hk, he, hlt, hall, hfirst⟩
        · refine Or.inl ⟨he, fun j hj => ?_⟩
          cases j with
          | zero => simpa using hle
          | succ j => simpa using hall j (by simpa using hj)
        · refine Or.inr ⟨k + 1, by simpa using hk, ?_, ?_, fun j hj => ?_, fun j hj => ?_⟩
          · rw [he, show i0 + (k + 1) = i0 + 1 + k by omega]
            simp
          · simpa using hlt
          · cases j with
            | zero => simpa using hle.trans hlt.le
            | succ j => simpa using hall j (by simpa using hj)
          · cases j with
            | zero => simpa using lt_of_le_of_lt hle hlt
            | succ j => simpa using hfirst j (by omega)

/-- What one iteration does. -/
theorem scdStep_eq (loss : LossFn α (List α)) (beta lambda : α) (hb : 0 < beta) (hl : 0 ≤ lambda) (X : DMat α) (y w g : List α)
    (hg : loss.gradient X y w = .ok g) (hw : w.length = X.ncols) (hgl : g.length = X.ncols) (hd : 0 < X.ncols) :
    ∃ k < X.ncols, scdStep loss beta lambda X y w =
        .ok (w.set k (w.getD k 0 + eta beta lambda (w.getD k 0) (g.getD k 0))) ∧
      (∀ j < X.ncols, predDescent beta lambda (w.getD j 0) (g.getD j 0) (eta beta lambda (w.getD j 0) (g.getD j 0)) ≤
        predDescent beta lambda (w.getD k 0) (g.getD k 0) (eta beta lambda (w.getD k 0) (g.getD k 0))) ∧
      ∀ j < k, predDescent beta lambda (w.getD j 0) (g.getD j 0) (eta beta lambda (w.getD j 0) (g.getD j 0)) <
        predDescent beta lambda (w.getD k 0) (g.getD k 0) (eta beta lambda (w.getD k 0) (g.getD k 0)) := by
  have hwt : w.take X.ncols = w := by rw [← hw, List.take_length]
  have hgt : g.take X.ncols = g := by rw [← hgl, List.take_length]
  rcases bestCoord_spec beta lambda w g (by omega) 0 (-1, 0, 0) with ⟨_, hall⟩ | ⟨k, hk, he, _, hall, hfirst⟩
  · have h0 := hall 0 (by omega)
    have h1 := predDescent_le beta lambda (w.getD 0 0) (g.getD 0 0) 0 hb hl
    rw [predDescent_zero] at h1
    have : (0 : α) ≤ -1 := h1.trans h0
    exact absurd this (by norm_num)
  · refine ⟨k, by omega, ?_, fun j hj => hall j (by omega), hfirst⟩
    unfold scdStep
    rw [hg, Res.bind_ok, if_pos ⟨by omega, by omega⟩, hwt, hgt, he]
    dsimp only
    rw [Nat.zero_add, readAt_of_lt hk, Res.bind_ok]
    simp [List.getD_eq_getElem?_getD, hk]

theorem sum_abs_set (w : List α) (k : Nat) (hk : k < w.length) (a : α) :
    ((w.set k a).map fun b => |b|).sum = (w.map fun b => |b|).sum + (|a| - |w.getD k 0|) := by
  induction w generalizing k with
  | nil => simp at hk
  | cons b w ih =>
    cases k with
    | zero =>
      simp only [List.set_cons_zero, List.map_cons, List.sum_cons, List.getD_cons_zero]
      ring
    | succ k =>
      simp only [List.set_cons_succ, List.map_cons, List.sum_cons, ih k (by simpa using hk), List.getD_cons_succ]
      ring

end OpenML.SCD
