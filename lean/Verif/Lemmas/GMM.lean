import Verif.Model.GMM
import Verif.Spec.GMM
import Verif.Lemmas.PCA
import Verif.Props.Analytic
import Verif.Props.MatOps
import Mathlib.Analysis.Matrix.PosDef
import Mathlib.LinearAlgebra.Matrix.Block

/-!
# Lemmas about the Gaussian mixture model
-/

namespace OpenML.GMM

open Matrix Spec

/-! ## The inverse of the transposed Cholesky factor -/

theorem chol_det {d : Nat} {A L : Matrix (Fin d) (Fin d) ℝ} (h : IsCholesky A L) : 0 < L.det := by
  have hl : L.IsLowerTriangular := fun i j hij => h.lower i j (by simpa using hij)
  rw [det_of_isLowerTriangular L hl]
  exact Finset.prod_pos fun i _ => h.pos i

theorem precisionChol_of_chol {d : Nat} {A L : Matrix (Fin d) (Fin d) ℝ} (h : IsCholesky A L) : IsPrecisionChol A (Lᵀ)⁻¹ := by
  have hdet := chol_det h
  have hu : IsUnit (Lᵀ).det := by rw [det_transpose]; exact isUnit_iff_ne_zero.mpr hdet.ne'
  have hup : BlockTriangular Lᵀ id := fun i j hij => h.lower j i hij
  have : Invertible Lᵀ := Lᵀ.invertibleOfIsUnitDet hu
  have hinv : BlockTriangular (Lᵀ)⁻¹ id := blockTriangular_inv_of_blockTriangular hup
  have hupper : ∀ i j, j < i → (Lᵀ)⁻¹ i j = 0 := fun i j hij => hinv hij
  refine ⟨hupper, fun i => ?_, ?_⟩
  · have h1 : ((Lᵀ)⁻¹ * Lᵀ) i i = 1 := by rw [nonsing_inv_mul _ hu, one_apply_eq]
    rw [mul_apply, Finset.sum_eq_single i (fun j _ hj => by
      rcases lt_or_gt_of_ne hj with hj | hj
      · rw [hupper i j hj, zero_mul]
      · rw [transpose_apply, h.lower i j hj, mul_zero]) (by simp)] at h1
    have := h.pos i
    rw [transpose_apply] at h1
    by_contra hc
    have := mul_nonpos_of_nonpos_of_nonneg (not_lt.mp hc) this.le
    linarith
  · rw [transpose_nonsing_inv, transpose_transpose, ← Matrix.mul_inv_rev, h.product]

theorem log_det_precision {d : Nat} {C P : Matrix (Fin d) (Fin d) ℝ} (h : IsPrecisionChol C P) :
    logDetChol P = -(1 / 2) * Real.log C.det := by
  have hup : P.IsUpperTriangular := fun i j hij => h.upper i j hij
  have hd : P.det = ∏ i, P i i := det_of_isUpperTriangular hup
  have hp : P.det ^ 2 = (C.det)⁻¹ := by
    rw [sq]
    nth_rewrite 2 [← det_transpose]
    rw [← det_mul, h.product, det_nonsing_inv, Ring.inverse_eq_inv']
  have hl : Real.log P.det = logDetChol P := by
    rw [hd, logDetChol, Real.log_prod (fun i _ => (h.pos i).ne')]
  have := congrArg Real.log hp
  rw [Real.log_pow, Real.log_inv, hl] at this
  push_cast at this
  linarith

theorem quad_precision {d : Nat} {C P : Matrix (Fin d) (Fin d) ℝ} (h : IsPrecisionChol C P) (v : Fin d → ℝ) :
    ∑ j, ((v ᵥ* P) j) ^ 2 = v ⬝ᵥ (C⁻¹ *ᵥ v) := by
  rw [← h.product, ← mulVec_mulVec, mulVec_transpose, dotProduct_mulVec]
  simp only [dotProduct, sq]

theorem dot_self_pos {d : Nat} {u : Fin d → ℝ} (hu : u ≠ 0) : 0 < u ⬝ᵥ u :=
  lt_of_le_of_ne (Finset.sum_nonneg fun i _ => mul_self_nonneg (u i)) fun h => hu (dotProduct_self_eq_zero.mp h.symm)

/-! ## The estimates -/

variable {n K d : Nat}

theorem nk_pos {eps : ℝ} (heps : 0 < eps) {R : Matrix (Fin n) (Fin K) ℝ} (hR : ∀ i k, 0 ≤ R i k) (k : Fin K) :
    0 < nk eps R k := by
  have : 0 ≤ ∑ i, R i k := Finset.sum_nonneg fun i _ => hR i k
  unfold nk
  linarith

theorem meansOf_eq (pooled : Bool) (eps reg : ℝ) (X : Matrix (Fin n) (Fin d) ℝ) (R : Matrix (Fin n) (Fin K) ℝ) :
    meansOf eps X R = Matrix.of (emUpdate pooled eps reg X R).mean := by
  ext k j
  simp only [meansOf, emUpdate, nk, of_apply, mul_apply, transpose_apply, Pi.smul_apply, Finset.sum_apply, smul_eq_mul]
  rw [div_eq_inv_mul]

theorem covFull_eq (eps reg : ℝ) (X : Matrix (Fin n) (Fin d) ℝ) (R : Matrix (Fin n) (Fin K) ℝ) (k : Fin K) :
    covFull reg X R (meansOf eps X R) (nk eps R) k = (emUpdate false eps reg X R).cov k := by
  rw [meansOf_eq false eps reg]
  ext a b
  simp only [covFull, emUpdate, nk, of_apply, mul_apply, transpose_apply, Matrix.add_apply, Matrix.smul_apply, Matrix.sum_apply,
    vecMulVec_apply, smul_eq_mul, Pi.sub_apply, Bool.false_eq_true, if_false, diagonal_apply, one_apply]
  rw [div_eq_inv_mul]
  congr 1
  · congr 1
    exact Finset.sum_congr rfl fun i _ => by ring
  · split_ifs <;> simp

theorem covTied_eq (eps reg : ℝ) (X : Matrix (Fin n) (Fin d) ℝ) (R : Matrix (Fin n) (Fin K) ℝ) (k : Fin K) :
    covTied reg X (meansOf eps X R) (nk eps R) = (emUpdate true eps reg X R).cov k := by
  rw [meansOf_eq true eps reg]
  ext a b
  simp only [covTied, emUpdate, nk, of_apply, mul_apply, transpose_apply, Matrix.add_apply, Matrix.smul_apply, Matrix.sum_apply,
    vecMulVec_apply, smul_eq_mul, Matrix.sub_apply, if_true, diagonal_apply, one_apply]
  rw [div_eq_inv_mul]
  congr 1
  · congr 2
    exact Finset.sum_congr rfl fun i _ => by ring
  · split_ifs <;> simp

theorem vecMulVec_quad (u v : Fin d → ℝ) : v ⬝ᵥ (vecMulVec u u *ᵥ v) = (u ⬝ᵥ v) ^ 2 := by
  rw [vecMulVec_mulVec, dotProduct_smul, op_smul_eq_smul, smul_eq_mul, dotProduct_comm v u, sq]

theorem sum_mulVec' {ι : Type} [Fintype ι] (A : ι → Matrix (Fin d) (Fin d) ℝ) (v : Fin d → ℝ) :
    v ⬝ᵥ ((∑ i, A i) *ᵥ v) = ∑ i, v ⬝ᵥ (A i *ᵥ v) := by
  rw [Matrix.sum_mulVec, dotProduct_sum]

theorem cov_symm (pooled : Bool) (eps reg : ℝ) (X : Matrix (Fin n) (Fin d) ℝ) (R : Fin n → Fin K → ℝ) (k : Fin K) :
    ((emUpdate pooled eps reg X R).cov k).IsSymm := by
  ext a b
  cases pooled
  · simp only [emUpdate, transpose_apply, Matrix.add_apply, Matrix.smul_apply, Matrix.sum_apply,
      vecMulVec_apply, Bool.false_eq_true, if_false, one_apply, mul_comm, eq_comm]
  · simp only [emUpdate, transpose_apply, Matrix.add_apply, Matrix.smul_apply, Matrix.sum_apply, Matrix.sub_apply,
      vecMulVec_apply, if_true, one_apply, mul_comm, eq_comm]

/-- The quadratic form of the full covariance. -/
theorem cov_full_quad (eps reg : ℝ) (X : Matrix (Fin n) (Fin d) ℝ) (R : Fin n → Fin K → ℝ) (k : Fin K) (v : Fin d → ℝ) :
    v ⬝ᵥ ((emUpdate false eps reg X R).cov k *ᵥ v) =
      ((∑ i, R i k) + 10 * eps)⁻¹ * (∑ i, R i k * ((X i - (emUpdate false eps reg X R).mean k) ⬝ᵥ v) ^ 2) + reg * (v ⬝ᵥ v) := by
  simp only [emUpdate, Bool.false_eq_true, if_false]
  rw [add_mulVec, dotProduct_add, smul_mulVec, dotProduct_smul, sum_mulVec', smul_mulVec, one_mulVec, dotProduct_smul]
  simp only [smul_mulVec, dotProduct_smul, vecMulVec_quad, smul_eq_mul]

/-- The quadratic form of the pooled covariance. -/
theorem cov_pooled_quad (eps reg : ℝ) (X : Matrix (Fin n) (Fin d) ℝ) (R : Fin n → Fin K → ℝ) (k : Fin K) (v : Fin d → ℝ) :
    v ⬝ᵥ ((emUpdate true eps reg X R).cov k *ᵥ v) =
      (∑ l, ((∑ i, R i l) + 10 * eps))⁻¹ * (∑ i, (X i ⬝ᵥ v) ^ 2 -
        ∑ l, ((∑ i, R i l) + 10 * eps) * ((emUpdate true eps reg X R).mean l ⬝ᵥ v) ^ 2) + reg * (v ⬝ᵥ v) := by
  simp only [emUpdate, if_true]
  rw [add_mulVec, dotProduct_add, smul_mulVec, dotProduct_smul, sub_mulVec, dotProduct_sub, sum_mulVec', sum_mulVec', smul_mulVec,
    one_mulVec, dotProduct_smul]
  simp only [smul_mulVec, dotProduct_smul, vecMulVec_quad, smul_eq_mul]

theorem cov_quad_ge (pooled : Bool) {eps reg : ℝ} (heps : 0 < eps) (X : Matrix (Fin n) (Fin d) ℝ)
    (R : Fin n → Fin K → ℝ) (hR : ∀ i k, 0 ≤ R i k) (hrow : ∀ i, ∑ k, R i k = 1) (k : Fin K) (v : Fin d → ℝ) :
    reg * (v ⬝ᵥ v) ≤ v ⬝ᵥ ((emUpdate pooled eps reg X R).cov k *ᵥ v) := by
  have hN : ∀ l, 0 < (∑ i, R i l) + 10 * eps := fun l => nk_pos heps (R := Matrix.of R) hR l
  cases pooled
  · rw [cov_full_quad]
    have : 0 ≤ ∑ i, R i k * ((X i - (emUpdate false eps reg X R).mean k) ⬝ᵥ v) ^ 2 :=
      Finset.sum_nonneg fun i _ => mul_nonneg (hR i k) (sq_nonneg _)
    have := mul_nonneg (inv_nonneg.mpr (hN k).le) this
    linarith
  · rw [cov_pooled_quad]
    have hsum : 0 ≤ ∑ l, ((∑ i, R i l) + 10 * eps) := Finset.sum_nonneg fun l _ => (hN l).le
    have key : ∀ l, ((∑ i, R i l) + 10 * eps) * ((emUpdate true eps reg X R).mean l ⬝ᵥ v) ^ 2 ≤ ∑ i, R i l * (X i ⬝ᵥ v) ^ 2 := by
      intro l
      set N := (∑ i, R i l) + 10 * eps with hNdef
      have hm : (emUpdate true eps reg X R).mean l ⬝ᵥ v = N⁻¹ * ∑ i, R i l * (X i ⬝ᵥ v) := by
        simp only [emUpdate, smul_dotProduct, sum_dotProduct, smul_eq_mul, ← hNdef]
      have hcs : (∑ i, R i l * (X i ⬝ᵥ v)) ^ 2 ≤ (∑ i, R i l) * ∑ i, R i l * (X i ⬝ᵥ v) ^ 2 := by
        refine Finset.sum_sq_le_sum_mul_sum_of_sq_eq_mul _ (fun i _ => hR i l)
          (fun i _ => mul_nonneg (hR i l) (sq_nonneg _)) (fun i _ => by ring)
      have hNl : 0 < N := hN l
      have hq : 0 ≤ ∑ i, R i l * (X i ⬝ᵥ v) ^ 2 := Finset.sum_nonneg fun i _ => mul_nonneg (hR i l) (sq_nonneg _)
      rw [hm]
      have : N * (N⁻¹ * ∑ i, R i l * (X i ⬝ᵥ v)) ^ 2 = (∑ i, R i l * (X i ⬝ᵥ v)) ^ 2 / N := by
        field_simp
      rw [this, div_le_iff₀ hNl]
      calc _ ≤ _ := hcs
        _ ≤ N * ∑ i, R i l * (X i ⬝ᵥ v) ^ 2 := mul_le_mul_of_nonneg_right (by rw [hNdef]; linarith) hq
        _ = _ := mul_comm _ _
    have htot : ∑ l, ∑ i, R i l * (X i ⬝ᵥ v) ^ 2 = ∑ i, (X i ⬝ᵥ v) ^ 2 := by
      rw [Finset.sum_comm]
      exact Finset.sum_congr rfl fun i _ => by rw [← Finset.sum_mul, hrow i, one_mul]
    have hle := Finset.sum_le_sum fun l (_ : l ∈ Finset.univ) => key l
    rw [htot] at hle
    have := mul_nonneg (inv_nonneg.mpr hsum) (sub_nonneg.mpr hle)
    linarith

theorem cov_posDef (pooled : Bool) {eps reg : ℝ} (heps : 0 < eps) (hreg : 0 < reg) (X : Matrix (Fin n) (Fin d) ℝ)
    (R : Fin n → Fin K → ℝ) (hR : ∀ i k, 0 ≤ R i k) (hrow : ∀ i, ∑ k, R i k = 1) (k : Fin K) :
    ((emUpdate pooled eps reg X R).cov k).PosDef := by
  refine Matrix.PosDef.of_dotProduct_mulVec_pos ?_ fun {v} hv => ?_
  · rw [Matrix.IsHermitian, conjTranspose_eq_transpose_of_trivial]
    exact cov_symm pooled eps reg X R k
  · rw [star_trivial]
    exact lt_of_lt_of_le (mul_pos hreg (dot_self_pos hv)) (cov_quad_ge pooled heps X R hR hrow k v)

theorem cov_diag_ge (pooled : Bool) {eps reg : ℝ} (heps : 0 < eps) (X : Matrix (Fin n) (Fin d) ℝ)
    (R : Fin n → Fin K → ℝ) (hR : ∀ i k, 0 ≤ R i k) (hrow : ∀ i, ∑ k, R i k = 1) (k : Fin K) (a : Fin d) :
    reg ≤ (emUpdate pooled eps reg X R).cov k a a := by
  have h := cov_quad_ge (reg := reg) pooled heps X R hR hrow k (Pi.single a 1)
  simpa using h

end OpenML.GMM
