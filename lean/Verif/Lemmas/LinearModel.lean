import Verif.Model.LinearModel
import Mathlib.LinearAlgebra.Matrix.DotProduct
import Mathlib.LinearAlgebra.Matrix.ToLinearEquiv
import Mathlib.Tactic.Linarith
import Mathlib.Tactic.Ring

/-!
# Lemmas about linear and ridge regression
-/

set_option linter.unusedSectionVars false

namespace OpenML.LinearModel

open Matrix

theorem predict_eq {n d : Nat} (X : Matrix (Fin n) (Fin d) ℝ) (b : Bool) (w : Fin (width b d) → ℝ) :
    predict X b w = design X b *ᵥ w := by
  cases b
  · rfl
  · funext i
    show (X *ᵥ fun j : Fin d => w (Fin.castSucc j)) i + w (Fin.last d) =
      ∑ j : Fin (d + 1), (Fin.snoc (α := fun _ => ℝ) (X i) 1 : Fin (d + 1) → ℝ) j * w j
    rw [Fin.sum_univ_castSucc]
    simp [Matrix.mulVec, dotProduct]

theorem dot_self_nonneg {n : Nat} (v : Fin n → ℝ) : 0 ≤ v ⬝ᵥ v := Finset.sum_nonneg fun _ _ => mul_self_nonneg _

theorem dot_self_pos {n : Nat} (v : Fin n → ℝ) (h : v ≠ 0) : 0 < v ⬝ᵥ v :=
  lt_of_le_of_ne (dot_self_nonneg v) fun h0 => h (dotProduct_self_eq_zero.mp h0.symm)

/-- Completing the square: if `(AᵀA + c) w = Aᵀ y`, the objective at `v` exceeds that at `w` by a square. -/
theorem objective_diff {n p : Nat} (A : Matrix (Fin n) (Fin p) ℝ) (y : Fin n → ℝ) (c : ℝ) (w v : Fin p → ℝ)
    (h : (Aᵀ * A + c • 1) *ᵥ w = Aᵀ *ᵥ y) :
    (A *ᵥ v - y) ⬝ᵥ (A *ᵥ v - y) + c * (v ⬝ᵥ v) =
      (A *ᵥ w - y) ⬝ᵥ (A *ᵥ w - y) + c * (w ⬝ᵥ w) + ((A *ᵥ (v - w)) ⬝ᵥ (A *ᵥ (v - w)) + c * ((v - w) ⬝ᵥ (v - w))) := by
  have key : ∀ u : Fin p → ℝ, (A *ᵥ u) ⬝ᵥ (A *ᵥ w) + c * (u ⬝ᵥ w) = (A *ᵥ u) ⬝ᵥ y := by
    intro u
    have h1 := congrArg (fun z => u ⬝ᵥ z) h
    simp only [Matrix.add_mulVec, Matrix.smul_mulVec, Matrix.one_mulVec, dotProduct_add, dotProduct_smul, smul_eq_mul,
      ← Matrix.mulVec_mulVec, Matrix.dotProduct_mulVec, Matrix.vecMul_transpose] at h1
    rw [Matrix.dotProduct_mulVec]
    exact h1
  have kv := key v
  have kw := key w
  simp only [Matrix.mulVec_sub, sub_dotProduct, dotProduct_sub]
  have c1 := dotProduct_comm (A *ᵥ w) (A *ᵥ v)
  have c2 := dotProduct_comm w v
  have c3 := dotProduct_comm y (A *ᵥ v)
  have c4 := dotProduct_comm y (A *ᵥ w)
  rw [c1, c2, c3, c4]
  linarith

theorem inverse_solves {p : Nat} (A inv : Matrix (Fin p) (Fin p) ℝ) (h : inverse A = some inv) : A * inv = 1 := by
  unfold inverse at h
  split at h
  · cases h
  · rename_i hd
    cases h
    exact Matrix.mul_nonsing_inv A (Ne.isUnit hd)

theorem gram_pos {n p : Nat} (A : Matrix (Fin n) (Fin p) ℝ) (v : Fin p → ℝ) : v ⬝ᵥ ((Aᵀ * A) *ᵥ v) = (A *ᵥ v) ⬝ᵥ (A *ᵥ v) := by
  rw [← Matrix.mulVec_mulVec, Matrix.dotProduct_mulVec, Matrix.vecMul_transpose]

theorem det_gram_ne_zero {n p : Nat} (A : Matrix (Fin n) (Fin p) ℝ) (c : ℝ) (hc : 0 ≤ c)
    (h : ∀ v : Fin p → ℝ, v ≠ 0 → A *ᵥ v ≠ 0 ∨ 0 < c) :
    (Aᵀ * A + c • (1 : Matrix (Fin p) (Fin p) ℝ)).det ≠ 0 := by
  intro hd
  obtain ⟨v, hv, hz⟩ := Matrix.exists_mulVec_eq_zero_iff.mpr hd
  have h1 := congrArg (fun z => v ⬝ᵥ z) hz
  simp only [Matrix.add_mulVec, Matrix.smul_mulVec, Matrix.one_mulVec, dotProduct_add, dotProduct_smul, smul_eq_mul,
    gram_pos, dotProduct_zero] at h1
  have h2 := dot_self_nonneg (A *ᵥ v)
  have h3 := dot_self_pos v hv
  rcases h v hv with h4 | h4
  · have := dot_self_pos _ h4
    nlinarith [mul_nonneg hc h3.le]
  · nlinarith [mul_pos h4 h3]

end OpenML.LinearModel
