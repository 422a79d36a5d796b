import Verif.Spec.GMM
import Mathlib.Analysis.Matrix.LDL
import Mathlib.LinearAlgebra.Matrix.Block

/-!
# Every positive definite matrix has a Cholesky decomposition
-/

namespace OpenML.Spec

open Matrix

theorem exists_cholesky {d : Nat} {A : Matrix (Fin d) (Fin d) ℝ} (hA : A.PosDef) : ∃ L, IsCholesky A L := by
  classical
  set M := LDL.lowerInv hA with hM
  set D := LDL.diagEntries hA with hD
  have : Invertible M := LDL.invertibleLowerInv hA
  have hMl : ∀ i j, i < j → M i j = 0 := fun i j h => LDL.lowerInv_triangular hA h
  have hdec : LDL.lower hA * diagonal D * (LDL.lower hA)ᴴ = A := LDL.lower_conj_diag hA
  have hlow : LDL.lower hA = M⁻¹ := rfl
  rw [hlow, conjTranspose_eq_transpose_of_trivial] at hdec
  have hinvl : BlockTriangular M⁻¹ OrderDual.toDual := blockTriangular_inv_of_blockTriangular fun i j h => hMl i j h
  have hNl : ∀ i j, i < j → M⁻¹ i j = 0 := fun i j h => hinvl h
  have hdiag : ∀ i, M⁻¹ i i ≠ 0 := by
    intro i hi
    have h1 : (M⁻¹ * M) i i = 1 := by rw [inv_mul_of_invertible, one_apply_eq]
    rw [mul_apply, Finset.sum_eq_single i (fun j _ hj => by
      rcases lt_or_gt_of_ne hj with hj | hj
      · rw [hMl j i hj, mul_zero]
      · rw [hNl i j hj, zero_mul]) (by simp), hi, zero_mul] at h1
    exact one_ne_zero h1.symm
  have hDpos : ∀ i, 0 < D i := by
    intro i
    have h1 : diagonal D = M * A * Mᴴ := LDL.diag_eq_lowerInv_conj hA
    have h2 : (M * A * Mᴴ).PosDef := by
      have hinj : Function.Injective (Mᴴ.mulVec) := by
        rw [conjTranspose_eq_transpose_of_trivial]
        exact mulVec_injective_of_isUnit ((isUnit_transpose M).mpr (isUnit_of_invertible M))
      have := hA.conjTranspose_mul_mul_same hinj
      rwa [conjTranspose_conjTranspose] at this
    rw [← h1] at h2
    have := h2.diag_pos (i := i)
    rwa [diagonal_apply_eq] at this
  refine ⟨Matrix.of fun i j => M⁻¹ i j * Real.sqrt (D j) * SignType.sign (M⁻¹ j j), ?_, ?_, ?_⟩
  · intro i j h
    simp [hNl i j h]
  · intro i
    have h1 : 0 < M⁻¹ i i * (SignType.sign (M⁻¹ i i) : ℝ) := by
      rw [mul_comm, sign_mul_self]
      exact abs_pos.mpr (hdiag i)
    have h2 := mul_pos h1 (Real.sqrt_pos.mpr (hDpos i))
    simp only [of_apply]
    calc _ < _ := h2
      _ = _ := by ring
  · rw [← hdec]
    ext i k
    rw [mul_apply, mul_apply]
    simp only [of_apply, transpose_apply, mul_diagonal]
    refine Finset.sum_congr rfl fun j _ => ?_
    have h1 : Real.sqrt (D j) * Real.sqrt (D j) = D j := Real.mul_self_sqrt (hDpos j).le
    have h2 : (SignType.sign (M⁻¹ j j) : ℝ) * SignType.sign (M⁻¹ j j) = 1 := by
      rcases lt_or_gt_of_ne (hdiag j) with h | h
      · simp [sign_neg h]
      · simp [sign_pos h]
    calc _ = M⁻¹ i j * (Real.sqrt (D j) * Real.sqrt (D j)) * M⁻¹ k j *
          ((SignType.sign (M⁻¹ j j) : ℝ) * SignType.sign (M⁻¹ j j)) := by ring
      _ = _ := by rw [h1, h2]; ring

/-- There is a routine as asked for: it succeeds exactly for positive definite matrices. -/
theorem exists_choleskyRoutine (d : Nat) :
    ∃ chol : Matrix (Fin d) (Fin d) ℝ → Option (Matrix (Fin d) (Fin d) ℝ), CholeskyRoutine chol := by
  classical
  refine ⟨fun A => if h : A.PosDef then some (exists_cholesky h).choose else none, fun A L _ hL => ?_, fun A hA => ?_⟩
  · by_cases h : A.PosDef
    · simp only [h, dif_pos, Option.some.injEq] at hL
      subst hL
      exact (exists_cholesky h).choose_spec
    · simp [h] at hL
  · simp [hA]

end OpenML.Spec
