import Verif.Lemmas.LinAlg

/-!
# C32, C73-C76: pseudo-inverse, covariance, log determinant, LU, QR
-/

set_option linter.unusedSectionVars false

namespace OpenML

open Matrix Spec LinAlg

/-- C32: for a non-negative cut-off `pinv` satisfies the Moore-Penrose equations for the matrix in which the singular values
not above the cut-off are replaced by zero. -/
theorem C32_truncated {m n : Nat} (x : Matrix (Fin m) (Fin n) ℝ) (U : Matrix (Fin m) (Fin m) ℝ) (s : Nat → ℝ)
    (V : Matrix (Fin n) (Fin n) ℝ) (h : IsFullSVD x U s V) (tol : ℝ) (ht : 0 ≤ tol) :
    IsMoorePenrose
      (U * (Matrix.of fun (i : Fin m) (j : Fin n) => if i.val = j.val then (if s i.val ≤ tol then 0 else s i.val) else 0) * Vᵀ)
      (pinv tol U s V) := by
  refine moorePenrose_orth U V h.left h.right _ _ ?_
  refine moorePenrose_diag m n (fun i => if s i ≤ tol then 0 else s i) (cutInverse tol s) (fun i => ?_) (fun i => ?_)
  · by_cases hs : s i ≤ tol
    · simp [hs]
    · have h0 : s i ≠ 0 := fun h0 => hs (by rw [h0]; exact ht)
      rw [cutInverse, if_neg hs, if_pos (not_le.mp hs)]
      field_simp
  · by_cases hs : s i ≤ tol
    · simp [hs, cutInverse]
    · have h0 : s i ≠ 0 := fun h0 => hs (by rw [h0]; exact ht)
      rw [cutInverse, if_neg hs, if_pos (not_le.mp hs)]
      field_simp

/-- C32: if every singular value is zero or above the cut-off, `pinv` is the Moore-Penrose inverse: it satisfies the four
equations and is the only matrix that does, so the result does not depend on the decomposition Eigen returns. -/
theorem C32_moore_penrose {m n : Nat} (x : Matrix (Fin m) (Fin n) ℝ) (U : Matrix (Fin m) (Fin m) ℝ) (s : Nat → ℝ)
    (V : Matrix (Fin n) (Fin n) ℝ) (h : IsFullSVD x U s V) (tol : ℝ) (ht : 0 ≤ tol)
    (hs : ∀ i, i < m → i < n → s i = 0 ∨ tol < s i) :
    IsMoorePenrose x (pinv tol U s V) ∧ ∀ q, IsMoorePenrose x q → q = pinv tol U s V := by
  have h1 := C32_truncated x U s V h tol ht
  have he : (Matrix.of fun (i : Fin m) (j : Fin n) => if i.val = j.val then (if s i.val ≤ tol then 0 else s i.val) else 0) =
      (Matrix.of fun (i : Fin m) (j : Fin n) => if i.val = j.val then s i.val else 0) := by
    refine rectDiag_congr m n (fun i => if s i ≤ tol then 0 else s i) s fun i hm hn => ?_
    rcases hs i hm hn with h0 | h0
    · simp [h0]
    · simp [not_le.mpr h0]
  rw [he, ← h.product] at h1
  exact ⟨h1, fun q hq => moorePenrose_unique x q _ hq h1⟩

/-- The matrix with rows (0, 3) and (-2, 0), with singular values 3 and 2. -/
example : IsFullSVD (!![0, 3; -2, 0] : Matrix (Fin 2) (Fin 2) ℝ) !![1, 0; 0, -1] (fun i => if i = 0 then 3 else 2)
    !![0, 1; 1, 0] := by
  refine ⟨?_, ?_, fun i _ _ => by split <;> norm_num, ?_⟩
  · ext i j; fin_cases i <;> fin_cases j <;> simp [Matrix.mul_apply, Fin.sum_univ_two]
  · ext i j; fin_cases i <;> fin_cases j <;> simp [Matrix.mul_apply, Fin.sum_univ_two]
  · ext i j; fin_cases i <;> fin_cases j <;> simp [Matrix.mul_apply, Fin.sum_univ_two, Matrix.vecHead, Matrix.vecTail]

/-- C32: for a square matrix with all singular values above the cut-off `pinv` is the inverse; if none is above it, the result
is zero whatever the matrix (the cut-off is absolute). -/
theorem C32_square {n : Nat} (x U : Matrix (Fin n) (Fin n) ℝ) (s : Nat → ℝ) (V : Matrix (Fin n) (Fin n) ℝ)
    (h : IsFullSVD x U s V) (tol : ℝ) (ht : 0 ≤ tol) :
    ((∀ i, i < n → tol < s i) → pinv tol U s V * x = 1 ∧ x * pinv tol U s V = 1 ∧ x⁻¹ = pinv tol U s V) ∧
    ((∀ i, i < n → s i ≤ tol) → pinv tol U s V = 0) := by
  constructor
  · intro hs
    have h1 : pinv tol U s V * x = 1 := by
      rw [h.product]
      show V * rectDiag n n (cutInverse tol s) * Uᵀ * (U * rectDiag n n s * Vᵀ) = 1
      calc V * rectDiag n n (cutInverse tol s) * Uᵀ * (U * rectDiag n n s * Vᵀ)
          = V * rectDiag n n (cutInverse tol s) * (Uᵀ * U) * rectDiag n n s * Vᵀ := by simp only [Matrix.mul_assoc]
        _ = V * (rectDiag n n (cutInverse tol s) * rectDiag n n s) * Vᵀ := by
          rw [h.left, Matrix.mul_one]; simp only [Matrix.mul_assoc]
        _ = V * 1 * Vᵀ := by
          congr 2
          rw [rectDiag_mul]
          ext i j
          have := hs i.val i.2
          have h0 : s i.val ≠ 0 := (lt_of_le_of_lt ht this).ne'
          simp only [rectDiag, Matrix.of_apply, i.2, if_true, cutInverse, gt_iff_lt, this, Matrix.one_apply, Fin.ext_iff]
          split
          · field_simp
          · rfl
        _ = 1 := by rw [Matrix.mul_one]; exact mul_eq_one_comm.mp h.right
    exact ⟨h1, mul_eq_one_comm.mp h1, Matrix.inv_eq_left_inv h1⟩
  · intro hs
    have : rectDiag n n (cutInverse tol s) = 0 := by
      ext i j
      simp [rectDiag, cutInverse, hs i.val i.2]
    rw [pinv, this, Matrix.mul_zero, Matrix.zero_mul]

/-- The matrix with rows (0, 3) and (-2, 0): with the cut-off 1 both singular values are above it, with the cut-off 3 none. -/
example : ∃ U s V, IsFullSVD (!![0, 3; -2, 0] : Matrix (Fin 2) (Fin 2) ℝ) U s V ∧ (∀ i, i < 2 → 1 < s i) ∧ ∀ i, i < 2 → s i ≤ 3 := by
  refine ⟨!![1, 0; 0, -1], fun i => if i = 0 then 3 else 2, !![0, 1; 1, 0], ⟨?_, ?_, fun i _ _ => by split <;> norm_num, ?_⟩,
    fun i _ => by dsimp only; split <;> norm_num, fun i _ => by dsimp only; split <;> norm_num⟩
  · ext i j; fin_cases i <;> fin_cases j <;> simp [Matrix.mul_apply, Fin.sum_univ_two]
  · ext i j; fin_cases i <;> fin_cases j <;> simp [Matrix.mul_apply, Fin.sum_univ_two]
  · ext i j; fin_cases i <;> fin_cases j <;> simp [Matrix.mul_apply, Fin.sum_univ_two, Matrix.vecHead, Matrix.vecTail]

/-- C73: `cov` of at least two rows is symmetric, has non-negative quadratic forms, has the unbiased sample variances on the
diagonal, and does not change when a constant row is added; with one row it is undefined. -/
theorem C73_cov {n d : Nat} (X : Matrix (Fin n) (Fin d) ℝ) :
    (n = 1 → cov X = none) ∧
    (2 ≤ n → ∃ C, cov X = some C ∧ Cᵀ = C ∧ (∀ v : Fin d → ℝ, 0 ≤ v ⬝ᵥ (C *ᵥ v)) ∧
      (∀ i j, C i j = (∑ k, (X k i - columnMean X i) * (X k j - columnMean X j)) / ((n : ℝ) - 1)) ∧
      ∀ c : Fin d → ℝ, cov (Matrix.of fun i j => X i j + c j) = some C) := by
  refine ⟨fun h => by rw [cov, if_pos h], fun hn => ?_⟩
  have hn1 : (0 : ℝ) < (n : ℝ) - 1 := by
    have : (2 : ℝ) ≤ n := by exact_mod_cast hn
    linarith
  refine ⟨_, by rw [cov, if_neg (by omega)], ?_, ?_, ?_, ?_⟩
  · rw [Matrix.transpose_smul, Matrix.transpose_mul, Matrix.transpose_transpose]
  · intro v
    rw [Matrix.smul_mulVec, dotProduct_smul, ← Matrix.mulVec_mulVec, Matrix.dotProduct_mulVec, Matrix.vecMul_transpose,
      smul_eq_mul]
    exact mul_nonneg (div_nonneg zero_le_one hn1.le) (Finset.sum_nonneg fun i _ => mul_self_nonneg _)
  · intro i j
    simp only [Matrix.smul_apply, Matrix.mul_apply, Matrix.transpose_apply, center, Matrix.of_apply, columnMean, smul_eq_mul]
    rw [div_mul_eq_mul_div, one_mul]
  · intro c
    rw [cov, if_neg (by omega)]
    have : center (Matrix.of fun i j => X i j + c j) = center X := by
      ext i j
      simp only [center, Matrix.of_apply, Finset.sum_add_distrib, Finset.sum_const, Finset.card_univ, Fintype.card_fin,
        nsmul_eq_mul]
      have : (n : ℝ) ≠ 0 := by linarith
      field_simp
      ring
    rw [this]

example : cov (!![0, 0; 2, 4] : Matrix (Fin 2) (Fin 2) ℝ) = some !![2, 4; 4, 8] := by
  obtain ⟨C, h1, -, -, h2, -⟩ := (C73_cov (!![0, 0; 2, 4] : Matrix (Fin 2) (Fin 2) ℝ)).2 le_rfl
  rw [h1]
  congr 1
  ext i j
  rw [h2]
  fin_cases i <;> fin_cases j <;> norm_num [columnMean, Fin.sum_univ_two]

/-- C74: `logdet` returns the logarithm of the determinant when that is positive and minus infinity otherwise, whatever
pivots Eigen chooses. -/
theorem C74_logdet {n : Nat} (x : Matrix (Fin n) (Fin n) ℝ) (p : Equiv.Perm (Fin n)) (L U : Matrix (Fin n) (Fin n) ℝ)
    (h : IsPartialPivLU x p L U) :
    (0 < x.det → logdet p (fun i => U i i) = ((Real.log x.det : ℝ) : WithBot ℝ)) ∧
    (x.det ≤ 0 → logdet p (fun i => U i i) = ⊥) := by
  have hd := det_of_partialPivLU x p L U h
  have hsq : ((Equiv.Perm.sign p : ℤ) : ℝ) * ((Equiv.Perm.sign p : ℤ) : ℝ) = 1 := by
    rcases Int.units_eq_one_or (Equiv.Perm.sign p) with h | h <;> simp [h]
  have hx : x.det = ((Equiv.Perm.sign p : ℤ) : ℝ) * ∏ i, U i i := by rw [← hd, ← mul_assoc, hsq, one_mul]
  by_cases hz : ∃ i, U i i = 0
  · have h0 : x.det = 0 := by
      obtain ⟨i, hi⟩ := hz
      have : ∏ i, U i i = 0 := Finset.prod_eq_zero (i := i) (Finset.mem_univ i) hi
      rw [hx, this, mul_zero]
    refine ⟨fun hp => absurd h0 hp.ne', fun _ => ?_⟩
    simp [logdet, signOf, logAbsDiag, hz]
  · push Not at hz
    have hne : ¬ ∃ i, U i i = 0 := by push Not; exact hz
    have hprod : ∏ i, U i i = (∏ i, |U i i|) * ∏ i, U i i / |U i i| := by
      rw [← Finset.prod_mul_distrib]
      refine Finset.prod_congr rfl fun i _ => ?_
      have := abs_ne_zero.mpr (hz i)
      field_simp
    have hpos : 0 < ∏ i, |U i i| := Finset.prod_pos fun i _ => abs_pos.mpr (hz i)
    set σ : ℝ := ((Equiv.Perm.sign p : ℤ) : ℝ) * ∏ i, U i i / |U i i| with hσ
    have hxs : x.det = (∏ i, |U i i|) * σ := by rw [hx, hprod, hσ]; ring
    have hs : signOf p (fun i => U i i) = some σ := by rw [signOf, if_neg hne]
    have habs : |σ| = 1 := by
      rw [hσ, abs_mul, Finset.abs_prod]
      have h1 : |((Equiv.Perm.sign p : ℤ) : ℝ)| = 1 := by
        rcases Int.units_eq_one_or (Equiv.Perm.sign p) with h | h <;> simp [h]
      have h2 : ∀ i ∈ Finset.univ, |U i i / (|U i i|)| = 1 := fun i _ => by
        rw [abs_div, abs_abs, div_self (abs_ne_zero.mpr (hz i))]
      rw [h1, Finset.prod_congr rfl h2]
      simp
    constructor
    · intro hp
      have hσp : 0 < σ := by
        rw [hxs] at hp
        exact (pos_iff_pos_of_mul_pos hp).mp hpos
      have h1 : σ = 1 := by rwa [abs_of_pos hσp] at habs
      rw [logdet, hs]
      simp only
      rw [if_neg (not_lt.mpr hσp.le), logAbsDiag, if_neg hne, hxs, h1, mul_one, Real.log_prod]
      exact fun i _ => abs_ne_zero.mpr (hz i)
    · intro hp
      have hσn : σ < 0 := by
        have : σ ≤ 0 := by
          rw [hxs] at hp
          by_contra hc
          exact absurd hp (not_le.mpr (mul_pos hpos (not_le.mp hc)))
        refine lt_of_le_of_ne this fun h0 => ?_
        rw [h0] at habs
        simp at habs
      rw [logdet, hs]
      simp only
      rw [if_pos hσn]

/-- The contract is met for the matrix with rows (1, 2) and (3, 4), whose rows are exchanged. -/
example : IsPartialPivLU (!![1, 2; 3, 4] : Matrix (Fin 2) (Fin 2) ℝ) (Equiv.swap 0 1) !![1, 0; 1 / 3, 1] !![3, 4; 0, 2 / 3] := by
  refine ⟨?_, ?_, ?_, ?_⟩
  · ext i j
    fin_cases i <;> fin_cases j <;>
      norm_num [Matrix.mul_apply, Fin.sum_univ_two, Equiv.Perm.permMatrix, PEquiv.toMatrix_apply, Equiv.toPEquiv_apply]
  · intro i j h; fin_cases i <;> fin_cases j <;> simp at h ⊢
  · intro i; fin_cases i <;> simp
  · intro i j h; fin_cases i <;> fin_cases j <;> simp at h ⊢

/-- C75: `lu` forgets the column permutation: the factors multiply to the argument with rows and columns permuted, and with
`permute_l` the product of the first and last result is `P * P * x * Q`, so the argument is not recovered. -/
theorem C75_lu {n : Nat} (x P L U Q : Matrix (Fin n) (Fin n) ℝ) (h : IsFullPivLU x P L U Q) :
    (∀ b, (lu P L U b).2.1 * (lu P L U b).2.2 = P * x * Q) ∧
    Pᵀ * ((lu P L U false).2.1 * (lu P L U false).2.2) = x * Q ∧
    (lu P L U true).1 * (lu P L U true).2.2 = P * P * x * Q := by
  refine ⟨fun b => h.product.symm, ?_, ?_⟩
  · show Pᵀ * (L * U) = x * Q
    obtain ⟨p, rfl⟩ := h.rows
    rw [← h.product]
    have : (p.permMatrix ℝ)ᵀ * p.permMatrix ℝ = 1 := by
      rw [Matrix.transpose_permMatrix, ← Matrix.permMatrix_mul]
      simp
    calc (p.permMatrix ℝ)ᵀ * (p.permMatrix ℝ * x * Q) = (p.permMatrix ℝ)ᵀ * p.permMatrix ℝ * x * Q := by
          simp only [Matrix.mul_assoc]
      _ = x * Q := by rw [this, Matrix.one_mul]
  · show P * L * U = P * P * x * Q
    calc P * L * U = P * (L * U) := Matrix.mul_assoc _ _ _
      _ = P * (P * x * Q) := by rw [h.product]
      _ = _ := by simp only [Matrix.mul_assoc]

/-- C75: for the matrix with rows (1, 2) and (3, 4) and full pivoting on 4, neither `P * L * U` nor `P * L * U` with the
transposed permutation is the argument. -/
theorem C75_not_recovered :
    let x : Matrix (Fin 2) (Fin 2) ℝ := !![1, 2; 3, 4]
    let P : Matrix (Fin 2) (Fin 2) ℝ := (Equiv.swap 0 1 : Equiv.Perm (Fin 2)).permMatrix ℝ
    let L : Matrix (Fin 2) (Fin 2) ℝ := !![1, 0; 1 / 2, 1]
    let U : Matrix (Fin 2) (Fin 2) ℝ := !![4, 3; 0, -1 / 2]
    IsFullPivLU x P L U P ∧ (lu P L U true).1 * (lu P L U true).2.2 ≠ x ∧
      (lu P L U false).1ᵀ * (lu P L U false).2.1 * (lu P L U false).2.2 ≠ x := by
  refine ⟨⟨?_, ⟨_, rfl⟩, ⟨_, rfl⟩⟩, ?_, ?_⟩
  · ext i j
    fin_cases i <;> fin_cases j <;>
      norm_num [Matrix.mul_apply, Fin.sum_univ_two, Equiv.Perm.permMatrix, PEquiv.toMatrix_apply, Equiv.toPEquiv_apply]
  · intro h
    have := congrFun (congrFun h 0) 0
    norm_num [lu, Matrix.mul_apply, Fin.sum_univ_two, Equiv.Perm.permMatrix, PEquiv.toMatrix_apply, Equiv.toPEquiv_apply] at this
  · intro h
    have := congrFun (congrFun h 0) 0
    norm_num [lu, Matrix.mul_apply, Fin.sum_univ_two, Equiv.Perm.permMatrix, PEquiv.toMatrix_apply, Equiv.toPEquiv_apply] at this

/-- C76: the thin QR decomposition of a tall matrix multiplies to the argument, the first factor has orthonormal columns and
the second is upper triangular. -/
theorem C76_thin_qr {n k : Nat} (x : Matrix (Fin (n + k)) (Fin n) ℝ) (H : Matrix (Fin (n + k)) (Fin (n + k)) ℝ)
    (R : Matrix (Fin (n + k)) (Fin n) ℝ) (h : IsHouseholderQR x H R) :
    (thinQR H R).1 * (thinQR H R).2 = x ∧ (thinQR H R).1ᵀ * (thinQR H R).1 = 1 ∧ ∀ i j, j < i → (thinQR H R).2 i j = 0 := by
  refine ⟨?_, ?_, ?_⟩
  · show H * rectDiag (n + k) n (fun _ => 1) * _ = x
    rw [Matrix.mul_assoc, h.product]
    congr 1
    ext i j
    simp only [thinQR, rectDiag, Matrix.mul_apply, Matrix.of_apply]
    by_cases hi : i.val < n
    · rw [Finset.sum_eq_single (⟨i.val, hi⟩ : Fin n)]
      · simp [Fin.le_def, Fin.castAdd, Fin.castLE]
      · intro q _ hq
        have : i.val ≠ q.val := fun he => hq (Fin.ext he.symm)
        simp [this]
      · simp
    · rw [Finset.sum_eq_zero, if_neg (by have := j.2; omega)]
      intro q _
      have : i.val ≠ q.val := fun he => hi (by rw [he]; exact q.2)
      simp [this]
  · show (H * rectDiag (n + k) n (fun _ => 1))ᵀ * (H * rectDiag (n + k) n (fun _ => 1)) = 1
    rw [Matrix.transpose_mul, rectDiag_transpose]
    calc rectDiag n (n + k) (fun _ => 1) * Hᵀ * (H * rectDiag (n + k) n (fun _ => 1))
        = rectDiag n (n + k) (fun _ => 1) * (Hᵀ * H) * rectDiag (n + k) n (fun _ => 1) := by simp only [Matrix.mul_assoc]
      _ = 1 := by
        rw [h.orthogonal, Matrix.mul_one, rectDiag_mul]
        ext i j
        have : i.val < n + k := by have := i.2; omega
        simp [rectDiag, Matrix.one_apply, Fin.ext_iff, this]
  · intro i j hij
    simp [thinQR, not_le.mpr hij]

example : IsHouseholderQR (!![0, 2; 3, 1; 0, 0] : Matrix (Fin (2 + 1)) (Fin 2) ℝ) !![0, 1, 0; 1, 0, 0; 0, 0, 1]
    !![3, 1; 5, 2; 7, 7] := by
  refine ⟨?_, ?_⟩
  · ext i j; fin_cases i <;> fin_cases j <;> simp [Matrix.mul_apply, Fin.sum_univ_three]
  · ext i j; fin_cases i <;> fin_cases j <;> simp [Matrix.mul_apply, Fin.sum_univ_three]

end OpenML
