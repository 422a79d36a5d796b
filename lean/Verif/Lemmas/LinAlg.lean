import Verif.Model.LinAlg
import Verif.Spec.LinAlg
import Mathlib.LinearAlgebra.Matrix.Block
import Mathlib.Tactic.FieldSimp
import Mathlib.Tactic.Ring
import Mathlib.Tactic.Linarith
import Mathlib.Tactic.NoncommRing

/-!
# Lemmas about matrix decompositions
-/

set_option linter.unusedSectionVars false

namespace OpenML.LinAlg

open Matrix Spec

theorem rectDiag_mul (m n p : Nat) (f g : Nat → ℝ) :
    rectDiag m n f * rectDiag n p g = rectDiag m p fun i => if i < n then f i * g i else 0 := by
  ext i k
  simp only [rectDiag, Matrix.mul_apply, Matrix.of_apply]
  by_cases h : i.val < n
  · rw [Finset.sum_eq_single (⟨i.val, h⟩ : Fin n)]
    · simp [h]
    · intro j _ hj
      have : i.val ≠ j.val := fun he => hj (Fin.ext he.symm)
      simp [this]
    · simp
  · rw [Finset.sum_eq_zero]
    · simp [h]
    · intro j _
      have : i.val ≠ j.val := fun he => h (by rw [he]; exact j.2)
      simp [this]

theorem rectDiag_transpose (m n : Nat) (f : Nat → ℝ) : (rectDiag m n f)ᵀ = rectDiag n m f := by
  ext i j
  simp only [rectDiag, Matrix.transpose_apply, Matrix.of_apply]
  by_cases h : i.val = j.val
  · simp [h]
  · rw [if_neg h, if_neg (Ne.symm h)]

theorem rectDiag_congr (m n : Nat) (f g : Nat → ℝ) (h : ∀ i, i < m → i < n → f i = g i) : rectDiag m n f = rectDiag m n g := by
  ext i j
  simp only [rectDiag, Matrix.of_apply]
  split
  · rename_i he
    exact h i.val i.2 (by rw [he]; exact j.2)
  · rfl

theorem moorePenrose_diag (m n : Nat) (f g : Nat → ℝ) (h1 : ∀ i, f i * g i * f i = f i) (h2 : ∀ i, g i * f i * g i = g i) :
    IsMoorePenrose (rectDiag m n f) (rectDiag n m g) := by
  refine ⟨?_, ?_, ?_, ?_⟩
  · rw [rectDiag_mul, rectDiag_mul]
    refine rectDiag_congr _ _ _ _ fun i hm hn => ?_
    simp [hm, hn, h1]
  · rw [rectDiag_mul, rectDiag_mul]
    refine rectDiag_congr _ _ _ _ fun i hm hn => ?_
    simp [hm, hn, h2]
  · rw [rectDiag_mul, rectDiag_transpose]
  · rw [rectDiag_mul, rectDiag_transpose]

/-- Orthogonal changes of basis preserve the equations. -/
theorem moorePenrose_orth {m n : Nat} (U : Matrix (Fin m) (Fin m) ℝ) (V : Matrix (Fin n) (Fin n) ℝ) (hU : Uᵀ * U = 1)
    (hV : Vᵀ * V = 1) (x : Matrix (Fin m) (Fin n) ℝ) (p : Matrix (Fin n) (Fin m) ℝ) (h : IsMoorePenrose x p) :
    IsMoorePenrose (U * x * Vᵀ) (V * p * Uᵀ) := by
  have e1 : U * x * Vᵀ * (V * p * Uᵀ) = U * (x * p) * Uᵀ := by
    calc U * x * Vᵀ * (V * p * Uᵀ) = U * x * (Vᵀ * V) * p * Uᵀ := by simp only [Matrix.mul_assoc]
      _ = _ := by rw [hV, Matrix.mul_one]; simp only [Matrix.mul_assoc]
  have e2 : V * p * Uᵀ * (U * x * Vᵀ) = V * (p * x) * Vᵀ := by
    calc V * p * Uᵀ * (U * x * Vᵀ) = V * p * (Uᵀ * U) * x * Vᵀ := by simp only [Matrix.mul_assoc]
      _ = _ := by rw [hU, Matrix.mul_one]; simp only [Matrix.mul_assoc]
  refine ⟨?_, ?_, ?_, ?_⟩
  · rw [e1]
    calc U * (x * p) * Uᵀ * (U * x * Vᵀ) = U * (x * p) * (Uᵀ * U) * x * Vᵀ := by simp only [Matrix.mul_assoc]
      _ = U * (x * p * x) * Vᵀ := by rw [hU, Matrix.mul_one]; simp only [Matrix.mul_assoc]
      _ = _ := by rw [h.inner]
  · rw [e2]
    calc V * (p * x) * Vᵀ * (V * p * Uᵀ) = V * (p * x) * (Vᵀ * V) * p * Uᵀ := by simp only [Matrix.mul_assoc]
      _ = V * (p * x * p) * Uᵀ := by rw [hV, Matrix.mul_one]; simp only [Matrix.mul_assoc]
      _ = _ := by rw [h.outer]
  · rw [e1, Matrix.transpose_mul, Matrix.transpose_mul, Matrix.transpose_transpose, h.left]; simp only [Matrix.mul_assoc]
  · rw [e2, Matrix.transpose_mul, Matrix.transpose_mul, Matrix.transpose_transpose, h.right]; simp only [Matrix.mul_assoc]

theorem moorePenrose_unique {m n : Nat} (x : Matrix (Fin m) (Fin n) ℝ) (p q : Matrix (Fin n) (Fin m) ℝ)
    (hp : IsMoorePenrose x p) (hq : IsMoorePenrose x q) : p = q := by
  have h1 : x * p = x * q := by
    calc x * p = (x * p)ᵀ := hp.left.symm
      _ = pᵀ * xᵀ := Matrix.transpose_mul _ _
      _ = pᵀ * (x * q * x)ᵀ := by rw [hq.inner]
      _ = pᵀ * xᵀ * (x * q)ᵀ := by rw [Matrix.transpose_mul (x * q) x, Matrix.mul_assoc]
      _ = (x * p)ᵀ * (x * q)ᵀ := by rw [Matrix.transpose_mul x p]
      _ = x * p * (x * q) := by rw [hp.left, hq.left]
      _ = x * p * x * q := by simp only [Matrix.mul_assoc]
      _ = x * q := by rw [hp.inner]
  have h2 : p * x = q * x := by
    calc p * x = (p * x)ᵀ := hp.right.symm
      _ = xᵀ * pᵀ := Matrix.transpose_mul _ _
      _ = (x * q * x)ᵀ * pᵀ := by rw [hq.inner]
      _ = (q * x)ᵀ * (xᵀ * pᵀ) := by
        rw [Matrix.mul_assoc x q x, Matrix.transpose_mul x (q * x), Matrix.mul_assoc]
      _ = (q * x)ᵀ * (p * x)ᵀ := by rw [Matrix.transpose_mul p x]
      _ = q * x * (p * x) := by rw [hp.right, hq.right]
      _ = q * (x * p * x) := by simp only [Matrix.mul_assoc]
      _ = q * x := by rw [hp.inner]
  calc p = p * x * p := hp.outer.symm
    _ = q * x * p := by rw [h2]
    _ = q * (x * p) := Matrix.mul_assoc _ _ _
    _ = q * (x * q) := by rw [h1]
    _ = q * x * q := (Matrix.mul_assoc _ _ _).symm
    _ = q := hq.outer

theorem det_of_partialPivLU {n : Nat} (x : Matrix (Fin n) (Fin n) ℝ) (p : Equiv.Perm (Fin n)) (L U : Matrix (Fin n) (Fin n) ℝ)
    (h : IsPartialPivLU x p L U) : ((Equiv.Perm.sign p : ℤ) : ℝ) * x.det = ∏ i, U i i := by
  have h1 := congrArg Matrix.det h.product
  rw [Matrix.det_mul, Matrix.det_mul, Matrix.det_permutation,
    Matrix.det_of_isLowerTriangular L (fun i j hij => h.lower i j (by simpa using hij)),
    Matrix.det_of_isUpperTriangular (M := U) (fun i j hij => h.upper i j (by simpa using hij))] at h1
  simpa [h.unit] using h1

end OpenML.LinAlg
