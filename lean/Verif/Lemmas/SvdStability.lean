import Verif.Spec.SvdStability
import Verif.Lemmas.SvdUnique
import Verif.Props.PCA
import Mathlib.Analysis.InnerProductSpace.PiL2
import Mathlib.LinearAlgebra.Matrix.ToLinearEquiv

/-!
# Lemmas for C171: singular values are Lipschitz functions of the matrix
-/

namespace OpenML.SvdStability

open Spec Matrix

/-- Euclidean length. -/
noncomputable def sz {ι : Type} [Fintype ι] (v : ι → ℝ) : ℝ := Real.sqrt (∑ i, v i ^ 2)

theorem sz_norm {ι : Type} [Fintype ι] (v : ι → ℝ) : sz v = ‖(WithLp.toLp 2 v : EuclideanSpace ℝ ι)‖ := by
  rw [EuclideanSpace.norm_eq]
  simp [sz]

theorem sz_add {ι : Type} [Fintype ι] (v w : ι → ℝ) : sz (v + w) ≤ sz v + sz w := by
  rw [sz_norm, sz_norm, sz_norm]
  exact norm_add_le _ _

theorem sz_dot {ι : Type} [Fintype ι] (v : ι → ℝ) : sz v = Real.sqrt (v ⬝ᵥ v) := by
  simp [sz, dotProduct, sq]

theorem entrySize_sz {m n : Nat} (A : Matrix (Fin m) (Fin n) ℝ) : entrySize A = sz fun p : Fin m × Fin n => A p.1 p.2 := by
  unfold entrySize sz entrySquares
  rw [Fintype.sum_prod_type]

theorem entrySquares_nonneg {m n : Nat} (A : Matrix (Fin m) (Fin n) ℝ) : 0 ≤ entrySquares A :=
  Finset.sum_nonneg fun _ _ => Finset.sum_nonneg fun _ _ => sq_nonneg _

theorem entrySize_add {m n : Nat} (A B : Matrix (Fin m) (Fin n) ℝ) : entrySize (A + B) ≤ entrySize A + entrySize B := by
  rw [entrySize_sz, entrySize_sz, entrySize_sz]
  exact sz_add _ _

theorem entrySize_comm {m n : Nat} (A B : Matrix (Fin m) (Fin n) ℝ) : entrySize (A - B) = entrySize (B - A) := by
  unfold entrySize entrySquares
  congr 1
  refine Finset.sum_congr rfl fun i _ => Finset.sum_congr rfl fun j _ => ?_
  rw [Matrix.sub_apply, Matrix.sub_apply]
  ring

theorem mulVec_size {m n : Nat} (A : Matrix (Fin m) (Fin n) ℝ) (v : Fin n → ℝ) : sz (A *ᵥ v) ≤ entrySize A * sz v := by
  unfold entrySize sz
  rw [← Real.sqrt_mul (entrySquares_nonneg A)]
  refine Real.sqrt_le_sqrt ?_
  rw [entrySquares, Finset.sum_mul]
  exact Finset.sum_le_sum fun i _ => Finset.sum_mul_sq_le_sq_mul_sq Finset.univ (fun j => A i j) v

variable {m n K : Nat} {x x' : Matrix (Fin m) (Fin n) ℝ} {U U' : Matrix (Fin m) (Fin K) ℝ} {s s' : Fin K → ℝ} {V V' : Matrix (Fin n) (Fin K) ℝ}

theorem orth_size {p : Nat} {Q : Matrix (Fin p) (Fin K) ℝ} (h : Qᵀ * Q = 1) (c : Fin K → ℝ) : sz (Q *ᵥ c) = sz c := by
  rw [sz_dot, sz_dot, dotProduct_mulVec, ← mulVec_transpose, mulVec_mulVec, h, one_mulVec]

/-- Lengths of images. -/
theorem image_size (h : IsThinSVD x U s V) (v : Fin n → ℝ) : sz (x *ᵥ v) = sz fun j => s j * (Vᵀ *ᵥ v) j := by
  have h1 : x *ᵥ v = U *ᵥ (diagonal s *ᵥ (Vᵀ *ᵥ v)) := by
    conv_lhs => rw [h.product]
    rw [mulVec_mulVec, mulVec_mulVec, Matrix.mul_assoc]
  rw [h1, orth_size h.left]
  congr 1
  ext j
  rw [mulVec_diagonal]

/-- Combinations of the first vectors of one decomposition that are orthogonal to the earlier ones of another. -/
theorem common (h : IsThinSVD x U s V) (i : Fin K) (V' : Matrix (Fin n) (Fin K) ℝ) :
    ∃ c : Fin K → ℝ, c ≠ 0 ∧ (∀ j, i < j → c j = 0) ∧ ∀ j < i, (V'ᵀ *ᵥ (V *ᵥ c)) j = 0 := by
  obtain ⟨c, hc, h0⟩ := (Matrix.exists_mulVec_eq_zero_iff
    (M := (Matrix.of fun j l => if j < i then (V'ᵀ * V) j l else if i < j then (1 : Matrix (Fin K) (Fin K) ℝ) j l else 0))).mpr
    (Matrix.det_eq_zero_of_row_eq_zero i fun l => by simp)
  refine ⟨c, hc, fun j hj => ?_, fun j hj => ?_⟩
  · have := congrFun h0 j
    simp only [mulVec, dotProduct, of_apply, if_neg (not_lt.mpr hj.le), if_pos hj] at this
    simpa [one_apply] using this
  · have := congrFun h0 j
    simp only [mulVec, dotProduct, of_apply, if_pos hj] at this
    rw [mulVec_mulVec]
    exact this

theorem weyl (h : IsThinSVD x U s V) (h' : IsThinSVD x' U' s' V') (i : Fin K) : s i ≤ s' i + entrySize (x - x') := by
  obtain ⟨c, hc, h1, h2⟩ := common h i V'
  have hpos : 0 < sz c := by
    rw [sz_norm, norm_pos_iff]
    intro h0
    exact hc (by simpa using h0)
  have hVc : Vᵀ *ᵥ (V *ᵥ c) = c := by rw [mulVec_mulVec, h.right, one_mulVec]
  have h3 : s i * sz c ≤ sz (x *ᵥ (V *ᵥ c)) := by
    rw [image_size h, hVc]
    unfold sz
    rw [← Real.sqrt_sq (h.nonneg i), ← Real.sqrt_mul (sq_nonneg _), Finset.mul_sum]
    refine Real.sqrt_le_sqrt (Finset.sum_le_sum fun j _ => ?_)
    rw [mul_pow]
    rcases lt_or_ge i j with hj | hj
    · rw [h1 j hj]
      simp
    · exact mul_le_mul_of_nonneg_right (pow_le_pow_left₀ (h.nonneg i) (h.sorted hj) 2) (sq_nonneg _)
  have h4 : sz (x' *ᵥ (V *ᵥ c)) ≤ s' i * sz c := by
    rw [image_size h', ← orth_size h.right c]
    have hb := PCA.bessel h'.right (V *ᵥ c)
    have e : ∑ q, (V *ᵥ c) q ^ 2 = (V *ᵥ c) ⬝ᵥ (V *ᵥ c) := by simp [dotProduct, sq]
    unfold sz
    rw [← Real.sqrt_sq (h'.nonneg i), ← Real.sqrt_mul (sq_nonneg _), e]
    refine Real.sqrt_le_sqrt (le_trans ?_ (mul_le_mul_of_nonneg_left hb (sq_nonneg _)))
    rw [Finset.mul_sum]
    refine Finset.sum_le_sum fun j _ => ?_
    rw [mul_pow]
    rcases lt_or_ge j i with hj | hj
    · rw [h2 j hj]
      simp
    · exact mul_le_mul_of_nonneg_right (pow_le_pow_left₀ (h'.nonneg j) (h'.sorted hj) 2) (sq_nonneg _)
  have h5 : sz (x *ᵥ (V *ᵥ c)) ≤ sz (x' *ᵥ (V *ᵥ c)) + entrySize (x - x') * sz c := by
    have h6 := sz_add (x' *ᵥ (V *ᵥ c)) ((x - x') *ᵥ (V *ᵥ c))
    rw [← add_mulVec, add_sub_cancel] at h6
    have h7 := mulVec_size (x - x') (V *ᵥ c)
    rw [orth_size h.right] at h7
    linarith
  have h8 : s i * sz c ≤ (s' i + entrySize (x - x')) * sz c := by
    rw [add_mul]
    linarith
  exact le_of_mul_le_mul_right h8 hpos

theorem weyl_abs (h : IsThinSVD x U s V) (h' : IsThinSVD x' U' s' V') (i : Fin K) : |s i - s' i| ≤ entrySize (x - x') := by
  have h1 := weyl h h' i
  have h2 := weyl h' h i
  rw [entrySize_comm x' x] at h2
  rw [abs_le]
  constructor <;> linarith

/-- Projecting rows on orthonormal vectors makes them no longer. -/
theorem project_le {k : Nat} (A : Matrix (Fin m) (Fin n) ℝ) (Q : Matrix (Fin k) (Fin n) ℝ) (hQ : Q * Qᵀ = 1) :
    entrySquares (A * Qᵀ) ≤ entrySquares A := by
  refine Finset.sum_le_sum fun i _ => ?_
  have h := PCA.bessel (V := Qᵀ) (by rwa [transpose_transpose]) (A i)
  rw [transpose_transpose] at h
  refine le_of_eq_of_le (Finset.sum_congr rfl fun q _ => ?_) (h.trans_eq ?_)
  · congr 1
    simp only [mul_apply, mulVec, dotProduct, transpose_apply]
    exact Finset.sum_congr rfl fun j _ => mul_comm _ _
  · simp [dotProduct, sq]

theorem project_left_le {k : Nat} (A : Matrix (Fin n) (Fin m) ℝ) (Q : Matrix (Fin k) (Fin n) ℝ) (hQ : Q * Qᵀ = 1) :
    entrySquares (Q * A) ≤ entrySquares A := by
  have hT : ∀ {a b : Nat} (B : Matrix (Fin a) (Fin b) ℝ), entrySquares Bᵀ = entrySquares B := fun B => Finset.sum_comm
  rw [← hT (Q * A), ← hT A, transpose_mul]
  exact project_le _ _ hQ

theorem centred_sub {d : Nat} (X X' : Matrix (Fin n) (Fin d) ℝ) : centred X - centred X' = centred (X - X') := by
  ext i j
  simp only [centred, columnMean, Matrix.sub_apply, of_apply, Finset.sum_sub_distrib]
  ring

theorem totalVar_eq {d : Nat} (X : Matrix (Fin n) (Fin d) ℝ) : totalVar X = entrySquares (centred X) / ((n : ℝ) - 1) := by
  unfold totalVar sampleVar entrySquares
  rw [Finset.sum_comm, Finset.sum_div]
  rfl

end OpenML.SvdStability
