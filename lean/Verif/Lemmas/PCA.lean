import Verif.Model.PCA
import Verif.Spec.PCA
import Verif.Props.SvdFlip
import Verif.Lemmas.LinAlg

/-!
# Lemmas for PCA
-/

namespace OpenML.PCA

open Matrix Spec

theorem entry_toDMat {m n : Nat} (x : Matrix (Fin m) (Fin n) ℝ) (i : Fin m) (j : Fin n) : entry (toDMat x) i.val j.val = x i j := by
  simp [entry, toDMat, List.getD_eq_getElem?_getD]

theorem toDMat_wf {m n : Nat} (x : Matrix (Fin m) (Fin n) ℝ) : (toDMat x).WF := by
  intro r hr
  simp only [toDMat, List.mem_ofFn] at hr
  obtain ⟨i, rfl⟩ := hr
  simp [toDMat]

theorem toDMat_nrows {m n : Nat} (x : Matrix (Fin m) (Fin n) ℝ) : (toDMat x).nrows = m := by
  simp [toDMat, DMat.nrows]

/-- `flip` multiplies columns and rows by signs. -/
theorem flip_spec {m k n : Nat} (U : Matrix (Fin m) (Fin k) ℝ) (Vt : Matrix (Fin k) (Fin n) ℝ) (hm : 0 < m)
    (hU : ∀ j, ∃ i, U i j ≠ 0) :
    ∃ σ : Fin k → ℝ, (∀ j, σ j = 1 ∨ σ j = -1) ∧ flip U Vt = .ok (U * diagonal σ, diagonal σ * Vt) ∧
      ∀ j, ∃ p, 0 < U p j * σ j ∧ ∀ i, |U i j * σ j| ≤ U p j * σ j ∧ (|U i j * σ j| = U p j * σ j → p ≤ i) := by
  obtain ⟨U', V', h1, -, -, hr, hc, -, -, -, hσ, htop⟩ := C31_columns (toDMat U) (toDMat Vt) (toDMat_wf U) (toDMat_wf Vt)
    (toDMat_nrows Vt) (by rw [toDMat_nrows]; exact hm) (by
      intro j hj
      obtain ⟨i, hi⟩ := hU ⟨j, hj⟩
      exact ⟨i.val, by rw [toDMat_nrows]; exact i.2, by rw [entry_toDMat U i ⟨j, hj⟩]; exact hi⟩)
  choose σ hs hu hv using fun j : Fin k => hσ j.val j.2
  refine ⟨σ, hs, ?_, ?_⟩
  · unfold flip
    rw [h1, Res.bind_ok]
    congr 2
    · ext i j
      rw [mul_diagonal, mul_comm, ← entry_toDMat U i j, ← hu]
      rfl
    · ext i j
      rw [diagonal_mul, ← entry_toDMat Vt i j, ← hv]
      rfl
  · intro j
    obtain ⟨p, hp, hpos, hall⟩ := htop j.val j.2
    rw [toDMat_nrows] at hp hall
    refine ⟨⟨p, hp⟩, ?_, fun i => ?_⟩
    · rw [hu, entry_toDMat U ⟨p, hp⟩ j, mul_comm] at hpos
      exact hpos
    · have := hall i.val i.2
      rw [hu, hu, entry_toDMat U ⟨p, hp⟩ j, entry_toDMat U i j, mul_comm, mul_comm _ (U ⟨p, hp⟩ j)] at this
      exact this

/-- `flip` with mismatching inner dimensions. -/
theorem flip_mismatch {m k l n : Nat} (U : Matrix (Fin m) (Fin k) ℝ) (Vt : Matrix (Fin l) (Fin n) ℝ) (hm : 0 < m) (hn : 0 < n)
    (h : l ≠ k) : flip U Vt = .ub := by
  unfold flip
  rw [C31_mismatch (toDMat U) (toDMat Vt) (toDMat_wf U) (toDMat_wf Vt) (by rw [toDMat_nrows]; exact h)
    (by rw [toDMat_nrows]; exact hm) hn]
  rfl

theorem center_eq {n d : Nat} (X : Matrix (Fin n) (Fin d) ℝ) : LinAlg.center X = centred X := rfl

theorem col_ne_zero {m k : Nat} {U : Matrix (Fin m) (Fin k) ℝ} (h : Uᵀ * U = 1) (j : Fin k) : ∃ i, U i j ≠ 0 := by
  by_contra hc
  push Not at hc
  have := congrFun (congrFun h j) j
  rw [mul_apply, one_apply_eq] at this
  simp [hc] at this

theorem centred_shift {n d : Nat} (X : Matrix (Fin n) (Fin d) ℝ) (c : Fin d → ℝ) :
    centred (Matrix.of fun i j => X i j + c j) = centred X := by
  ext i j
  have hn : (n : ℝ) ≠ 0 := by
    have := i.2
    exact_mod_cast (by omega : n ≠ 0)
  simp only [centred, columnMean, of_apply, Finset.sum_add_distrib, Finset.sum_const, Finset.card_univ, Fintype.card_fin, nsmul_eq_mul]
  field_simp
  ring

theorem centred_sum {n d : Nat} (X : Matrix (Fin n) (Fin d) ℝ) (j : Fin d) : ∑ i, centred X i j = 0 := by
  rcases Nat.eq_zero_or_pos n with rfl | hn
  · simp
  · have hn : (n : ℝ) ≠ 0 := by exact_mod_cast hn.ne'
    simp only [centred, columnMean, of_apply, Finset.sum_sub_distrib, Finset.sum_const, Finset.card_univ, Fintype.card_fin,
      nsmul_eq_mul]
    field_simp
    ring

/-- Column sums of `centred X * A` vanish. -/
theorem centred_mul_sum {n d k : Nat} (X : Matrix (Fin n) (Fin d) ℝ) (A : Matrix (Fin d) (Fin k) ℝ) (j : Fin k) :
    ∑ i, (centred X * A) i j = 0 := by
  simp only [mul_apply]
  rw [Finset.sum_comm]
  refine Finset.sum_eq_zero fun q _ => ?_
  rw [← Finset.sum_mul, centred_sum, zero_mul]

theorem sampleCov_eq {n d : Nat} (X : Matrix (Fin n) (Fin d) ℝ) :
    sampleCov X = ((n : ℝ) - 1)⁻¹ • ((centred X)ᵀ * centred X) := by
  ext i j
  simp only [sampleCov, Matrix.smul_apply, mul_apply, transpose_apply, centred, of_apply, smul_eq_mul]
  rw [div_eq_inv_mul]

/-- The covariance of `centred X * A`. -/
theorem sampleCov_centred_mul {n d k : Nat} (X : Matrix (Fin n) (Fin d) ℝ) (A : Matrix (Fin d) (Fin k) ℝ) :
    sampleCov (centred X * A) = Aᵀ * sampleCov X * A := by
  have hc : centred (centred X * A) = centred X * A := by
    ext i j
    simp only [centred, of_apply, columnMean]
    have := centred_mul_sum X A j
    simp only [centred, columnMean] at this
    rw [this, zero_div, sub_zero]
  rw [sampleCov_eq, sampleCov_eq, hc, transpose_mul, Matrix.mul_smul, Matrix.smul_mul]
  simp only [Matrix.mul_assoc]

/-- The variance of a linear combination of the columns. -/
theorem sampleVar_eq {n d : Nat} (X : Matrix (Fin n) (Fin d) ℝ) (v : Fin d → ℝ) :
    sampleVar (X *ᵥ v) = v ⬝ᵥ (sampleCov X *ᵥ v) := by
  have h1 : ∀ k, (X *ᵥ v) k - (∑ i, (X *ᵥ v) i) / n = (centred X *ᵥ v) k := by
    intro k
    simp only [mulVec, dotProduct, centred, of_apply, columnMean, sub_mul, Finset.sum_sub_distrib]
    congr 1
    rw [Finset.sum_comm, Finset.sum_div]
    refine Finset.sum_congr rfl fun j _ => ?_
    rw [← Finset.sum_mul]
    ring
  have h2 : ∑ k, ((centred X *ᵥ v) k) ^ 2 = v ⬝ᵥ (((centred X)ᵀ * centred X) *ᵥ v) := by
    rw [← mulVec_mulVec, dotProduct_mulVec, vecMul_transpose]
    simp only [dotProduct, sq]
  unfold sampleVar
  simp only [h1]
  rw [h2, sampleCov_eq, smul_mulVec, dotProduct_smul, smul_eq_mul, div_eq_inv_mul]

/-- The covariance in terms of the decomposition. -/
theorem sampleCov_svd {n d K : Nat} {X : Matrix (Fin n) (Fin d) ℝ} {U : Matrix (Fin n) (Fin K) ℝ} {s : Fin K → ℝ}
    {V : Matrix (Fin d) (Fin K) ℝ} (h : IsThinSVD (centred X) U s V) :
    sampleCov X = V * diagonal (fun i => s i ^ 2 / ((n : ℝ) - 1)) * Vᵀ := by
  rw [sampleCov_eq, h.product, transpose_mul, transpose_mul, transpose_transpose, diagonal_transpose]
  have : V * (diagonal s * Uᵀ) * (U * diagonal s * Vᵀ) = V * (diagonal s * (Uᵀ * U) * diagonal s) * Vᵀ := by
    simp only [Matrix.mul_assoc]
  rw [this, h.left, Matrix.mul_one, diagonal_mul_diagonal, ← Matrix.smul_mul, ← Matrix.mul_smul, ← diagonal_smul]
  congr 3
  funext i
  simp only [Pi.smul_apply, smul_eq_mul]
  ring

end OpenML.PCA
