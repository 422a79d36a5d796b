import Verif.Lemmas.Hinge
import Mathlib.Algebra.Order.Ring.Rat

/-!
# C46: the hinge loss
-/

set_option linter.unusedSectionVars false

namespace OpenML

open Spec Loss

variable {α : Type} [Field α] [LinearOrder α] [IsStrictOrderedRing α]

/-- C46: for every content of the uninitialised accumulator `HingeLoss::gradient` returns that content plus one vector that only
depends on the arguments. So the results of two equal calls can differ by any vector. -/
theorem C46_buffer (lambda threshold : α) (X : DMat α) (hX : X.WF) (y w : List α) (hy : X.nrows ≤ y.length)
    (hw : w.length = X.ncols) :
    ∃ g : List α, g.length = X.ncols ∧
      ∀ b : List α, b.length = X.ncols →
        hingeGradient lambda threshold b X y w = .ok (List.zipWith (· + ·) b g) := by
  obtain ⟨g, hg, hl, -⟩ := loop_eq threshold X.ncols X.rows hX (X.rows.map fun r => dotL r w) y (by simp) hy
  refine ⟨vadd g (penaltyGrad lambda X.nrows w), by simp [vadd, hg, penaltyGrad, hw], fun b hb => ?_⟩
  unfold hingeGradient mulVec
  rw [if_pos hw.symm, Res.bind_ok, hl b hb, Res.bind_ok, addV, if_pos (by simp [vadd, hb, hg, penaltyGrad, hw])]
  exact congrArg Res.ok (vadd_assoc b g _)

/-- C46: with an accumulator of zeros the result is a sub-gradient of `HingeLoss::evaluate`, for every threshold and every
non-negative lambda. -/
theorem C46_subgradient (lambda threshold : α) (hl : 0 ≤ lambda) (X : DMat α) (hX : X.WF) (hn : X.rows ≠ []) (y w : List α)
    (hy : X.nrows ≤ y.length) (hw : w.length = X.ncols) :
    ∃ F g, (∀ v : List α, v.length = X.ncols → hingeEvaluate lambda threshold X y v = .ok (F v)) ∧
      hingeGradient lambda threshold (List.replicate X.ncols 0) X y w = .ok g ∧ IsSubgradient X.ncols F g w := by
  have hF : ∀ v : List α, v.length = X.ncols → hingeEvaluate lambda threshold X y v =
      .ok ((((X.rows.map fun r => dotL r v).zip y).map fun p => max 0 (threshold - p.1 * p.2)).sum +
        penalty lambda X.nrows v) := by
    intro v hv
    unfold hingeEvaluate mulVec
    rw [if_pos hv.symm, Res.bind_ok, hingeSum_eq _ _ _ (by simpa [DMat.nrows] using hy), Res.bind_ok, zero_add]
  obtain ⟨g, hg, hb, hd⟩ := loop_eq threshold X.ncols X.rows hX (X.rows.map fun r => dotL r w) y (by simp) hy
  refine ⟨_, vadd g (penaltyGrad lambda X.nrows w), hF, ?_, fun v hv => ?_⟩
  · have h0 : vadd (List.replicate X.ncols (0 : α)) g = g := by
      have h1 : ∀ (n : Nat) (l : List α), l.length = n → vadd (List.replicate n (0 : α)) l = l := by
        intro n
        induction n with
        | zero => intro l hl'; simp_all [vadd]
        | succ n ih =>
          intro l hl'
          cases l with
          | nil => simp at hl'
          | cons a l =>
            have := ih l (by simpa using hl')
            simp_all [vadd, List.replicate_succ]
      exact h1 _ g hg
    unfold hingeGradient mulVec
    rw [if_pos hw.symm, Res.bind_ok, hb _ (by simp), Res.bind_ok, h0, addV, if_pos (by simp [hg, penaltyGrad, hw])]
  · have hvw : v.length = w.length := by rw [hv, hw]
    have hsum : (((X.rows.map fun r => dotL r w).zip y).map fun p => max 0 (threshold - p.1 * p.2)).sum +
        (List.zipWith (fun r (p : α × α) => dotL (contribution threshold r p.1 p.2) (List.zipWith (· - ·) v w)) X.rows
          ((X.rows.map fun r => dotL r w).zip y)).sum ≤
        (((X.rows.map fun r => dotL r v).zip y).map fun p => max 0 (threshold - p.1 * p.2)).sum := by
      have hy' : X.rows.length ≤ y.length := hy
      clear hF hd hb hn hX hy
      generalize X.rows = rows at hy'
      induction rows generalizing y with
      | nil => simp
      | cons r rows ih =>
        cases y with
        | nil => simp at hy'
        | cons a y =>
          have h1 := ih y (by simpa using hy')
          simp only [List.map_cons, List.zip_cons_cons, List.zipWith_cons_cons, List.sum_cons] at h1 ⊢
          have h2 : max 0 (threshold - dotL r w * a) + dotL (contribution threshold r (dotL r w) a) (List.zipWith (· - ·) v w) ≤
              max 0 (threshold - dotL r v * a) := by
            unfold contribution
            split
            · rename_i h
              rw [dotL_zero, add_zero, max_eq_left (by linarith)]
              exact le_max_left _ _
            · rename_i h
              rw [dotL_map_mul, dotL_sub_right _ _ _ hvw, max_eq_right (by linarith)]
              refine le_trans (le_of_eq ?_) (le_max_right _ _)
              ring
          linarith
    have hpos : (0 : α) < X.nrows := by
      have : 0 < X.rows.length := List.length_pos_iff.mpr hn
      exact_mod_cast this
    have hpen : penalty lambda X.nrows w + dotL (penaltyGrad lambda X.nrows w) (List.zipWith (· - ·) v w) ≤
        penalty lambda X.nrows v := by
      have e : penaltyGrad lambda X.nrows w = w.map fun x => x * ((X.nrows : α)⁻¹ * lambda) := by
        unfold penaltyGrad
        refine List.map_congr_left fun x _ => ?_
        rw [div_eq_mul_inv]; ring
      rw [e, dotL_map_mul, dotL_sub_right _ _ _ hvw]
      have hsq : dotL w w + 2 * (dotL w v - dotL w w) ≤ dotL v v := by
        clear hF hd hb hsum e
        have : ∀ (v w : List α), v.length = w.length → dotL w w + 2 * (dotL w v - dotL w w) ≤ dotL v v := by
          intro v
          induction v with
          | nil => intro w h; cases w <;> simp_all [dotL]
          | cons x v ih =>
            intro w h
            cases w with
            | nil => simp at h
            | cons z w =>
              have := ih w (by simpa using h)
              simp only [dotL, List.zipWith_cons_cons, List.sum_cons] at this ⊢
              nlinarith [sq_nonneg (x - z)]
        exact this v w hvw
      have hc : 0 ≤ (X.nrows : α)⁻¹ * lambda := mul_nonneg (inv_nonneg.mpr hpos.le) hl
      unfold penalty
      have e2 : ∀ z : α, z / ((X.nrows : α) * 2) * lambda = z * 2⁻¹ * ((X.nrows : α)⁻¹ * lambda) := by
        intro z
        rw [div_eq_mul_inv, mul_inv]; ring
      rw [e2, e2]
      have := mul_le_mul_of_nonneg_right hsq hc
      linarith
    have h3 : (List.zipWith (· * ·) (vadd g (penaltyGrad lambda X.nrows w)) (List.zipWith (· - ·) v w)).sum =
        dotL g (List.zipWith (· - ·) v w) + dotL (penaltyGrad lambda X.nrows w) (List.zipWith (· - ·) v w) :=
      dotL_vadd g _ _ (by simp [hg, penaltyGrad, hw])
    rw [h3, hd]
    dsimp only
    linarith

/-- One sample inside the margin and one outside, with a dirty accumulator. -/
example : hingeGradient (1 : ℚ) 1 [100, 7] ⟨2, [[1, 2], [3, -1]]⟩ [1, -1] [1, 1] = .ok [103 + 1 / 2, 6 + 1 / 2] ∧
    hingeGradient (1 : ℚ) 1 [0, 0] ⟨2, [[1, 2], [3, -1]]⟩ [1, -1] [1, 1] = .ok [3 + 1 / 2, -1 + 1 / 2] ∧
    hingeEvaluate (1 : ℚ) 1 ⟨2, [[1, 2], [3, -1]]⟩ [1, -1] [1, 1] = .ok (3 + 1 / 2) := by decide +kernel

end OpenML
