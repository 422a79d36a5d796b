import Verif.Lemmas.LowRank
import Verif.Spec.PCASymmetry

/-!
# What a matrix determines of its singular value decomposition
-/

namespace OpenML.SvdUnique

open Matrix Spec LowRank

section
variable {m n K L : Nat} {x : Matrix (Fin m) (Fin n) ℝ} {U : Matrix (Fin m) (Fin K) ℝ} {s : Fin K → ℝ} {V : Matrix (Fin n) (Fin K) ℝ}
  {U' : Matrix (Fin m) (Fin L) ℝ} {s' : Fin L → ℝ} {V' : Matrix (Fin n) (Fin L) ℝ}

theorem mul_right (h : IsThinSVD x U s V) : x * V = U * diagonal s := by
  conv_lhs => rw [h.product]
  rw [Matrix.mul_assoc, h.right, Matrix.mul_one]

theorem gram (h : IsThinSVD x U s V) : xᵀ * x = V * diagonal (fun i => s i ^ 2) * Vᵀ := by
  conv_lhs => rw [h.product]
  rw [transpose_mul, transpose_mul, transpose_transpose, diagonal_transpose]
  have : V * (diagonal s * Uᵀ) * (U * diagonal s * Vᵀ) = V * (diagonal s * (Uᵀ * U) * diagonal s) * Vᵀ := by
    simp only [Matrix.mul_assoc]
  rw [this, h.left, Matrix.mul_one, diagonal_mul_diagonal]
  simp only [sq]

/-- The sum of squares of the first coordinates. -/
theorem prefix_squares (h : IsThinSVD x U s V) {k : Nat} (hk : k ≤ K) :
    entrySquares (x * (Matrix.of fun (i : Fin k) q => V q (Fin.castLE hk i))ᵀ) = ∑ i : Fin k, s (Fin.castLE hk i) ^ 2 := by
  rw [entrySquares, Finset.sum_comm]
  refine Finset.sum_congr rfl fun i _ => ?_
  have h1 : ∀ a, (x * (Matrix.of fun (i : Fin k) q => V q (Fin.castLE hk i))ᵀ) a i = U a (Fin.castLE hk i) * s (Fin.castLE hk i) := by
    intro a
    have := congrFun (congrFun (mul_right h) a) (Fin.castLE hk i)
    rw [mul_diagonal] at this
    rw [← this]
    rfl
  simp only [h1, mul_pow]
  rw [← Finset.sum_mul]
  have h2 := congrFun (congrFun h.left (Fin.castLE hk i)) (Fin.castLE hk i)
  rw [mul_apply, one_apply_eq] at h2
  simp only [transpose_apply, ← sq] at h2
  rw [h2, one_mul]

theorem prefix_orth (h : IsThinSVD x U s V) {k : Nat} (hk : k ≤ K) :
    (Matrix.of fun (i : Fin k) q => V q (Fin.castLE hk i)) * (Matrix.of fun (i : Fin k) q => V q (Fin.castLE hk i))ᵀ = 1 := by
  ext i j
  have h2 := congrFun (congrFun h.right (Fin.castLE hk i)) (Fin.castLE hk j)
  rw [mul_apply] at h2 ⊢
  refine h2.trans ?_
  by_cases hij : i = j
  · rw [hij, one_apply_eq, one_apply_eq]
  · rw [one_apply_ne hij, one_apply_ne fun he => hij (Fin.castLE_injective hk he)]

end

section
variable {m n K : Nat} {x : Matrix (Fin m) (Fin n) ℝ} {U U' : Matrix (Fin m) (Fin K) ℝ} {s s' : Fin K → ℝ} {V V' : Matrix (Fin n) (Fin K) ℝ}

/-- The singular values are determined. -/
theorem singular_unique (h : IsThinSVD x U s V) (h' : IsThinSVD x U' s' V') : s = s' := by
  have key : ∀ k (hk : k ≤ K), ∑ i : Fin k, s (Fin.castLE hk i) ^ 2 = ∑ i : Fin k, s' (Fin.castLE hk i) ^ 2 := by
    intro k hk
    apply le_antisymm
    · rw [← prefix_squares h hk]
      exact projection_le h' hk le_rfl _ (prefix_orth h hk)
    · rw [← prefix_squares h' hk]
      exact projection_le h hk le_rfl _ (prefix_orth h' hk)
  funext i
  have h1 := key (i.val + 1) i.2
  rw [Fin.sum_univ_castSucc, Fin.sum_univ_castSucc] at h1
  have h0 := key i.val i.2.le
  have h2 : s i ^ 2 = s' i ^ 2 := by
    have e1 : ∑ j : Fin i.val, s (Fin.castLE i.2 j.castSucc) ^ 2 = ∑ j : Fin i.val, s (Fin.castLE i.2.le j) ^ 2 := rfl
    have e2 : ∑ j : Fin i.val, s' (Fin.castLE i.2 j.castSucc) ^ 2 = ∑ j : Fin i.val, s' (Fin.castLE i.2.le j) ^ 2 := rfl
    have e3 : Fin.castLE i.2 (Fin.last i.val) = i := rfl
    rw [e1, e2, e3] at h1
    linarith
  exact (sq_eq_sq₀ (h.nonneg i) (h'.nonneg i)).mp h2

end

section
variable {n K L : Nat} {D : Fin K → ℝ} {V : Matrix (Fin n) (Fin K) ℝ} {D' : Fin L → ℝ} {V' : Matrix (Fin n) (Fin L) ℝ}

theorem half_calculus (h : V * diagonal D * Vᵀ = V' * diagonal D' * V'ᵀ) (hV : Vᵀ * V = 1) (hV' : V'ᵀ * V' = 1)
    (g : ℝ → ℝ) (g0 : g 0 = 0) :
    V * Vᵀ * V' * diagonal (fun i => g (D' i)) = V' * diagonal (fun i => g (D' i)) := by
  have h1 : V * Vᵀ * (V' * diagonal D') = V' * diagonal D' := by
    have e : V' * diagonal D' = V * diagonal D * Vᵀ * V' := by
      rw [h, Matrix.mul_assoc, hV', Matrix.mul_one]
    rw [e]
    calc V * Vᵀ * (V * diagonal D * Vᵀ * V') = V * (Vᵀ * V) * diagonal D * Vᵀ * V' := by simp only [Matrix.mul_assoc]
      _ = _ := by rw [hV, Matrix.mul_one]
  ext a i
  rw [mul_diagonal, mul_diagonal]
  by_cases hi : D' i = 0
  · rw [hi, g0, mul_zero, mul_zero]
  · have h2 := congrFun (congrFun h1 a) i
    rw [← Matrix.mul_assoc, mul_diagonal, mul_diagonal] at h2
    rw [mul_right_cancel₀ hi h2]

/-- A function with value zero at zero, applied to the eigenvalues of a symmetric matrix, gives a matrix that does not depend on the chosen
eigenvectors. -/
theorem calculus (h : V * diagonal D * Vᵀ = V' * diagonal D' * V'ᵀ) (hV : Vᵀ * V = 1) (hV' : V'ᵀ * V' = 1)
    (g : ℝ → ℝ) (g0 : g 0 = 0) :
    V * diagonal (fun i => g (D i)) * Vᵀ = V' * diagonal (fun i => g (D' i)) * V'ᵀ := by
  have h1 : diagonal D * (Vᵀ * V') = (Vᵀ * V') * diagonal D' := by
    have e : Vᵀ * (V * diagonal D * Vᵀ) * V' = Vᵀ * (V' * diagonal D' * V'ᵀ) * V' := by rw [h]
    calc diagonal D * (Vᵀ * V') = (Vᵀ * V) * diagonal D * (Vᵀ * V') := by rw [hV, Matrix.one_mul]
      _ = Vᵀ * (V * diagonal D * Vᵀ) * V' := by simp only [Matrix.mul_assoc]
      _ = Vᵀ * (V' * diagonal D' * V'ᵀ) * V' := e
      _ = (Vᵀ * V') * diagonal D' * (V'ᵀ * V') := by simp only [Matrix.mul_assoc]
      _ = _ := by rw [hV', Matrix.mul_one]
  have h2 : diagonal (fun i => g (D i)) * (Vᵀ * V') = (Vᵀ * V') * diagonal (fun i => g (D' i)) := by
    ext i j
    have := congrFun (congrFun h1 i) j
    rw [diagonal_mul, mul_diagonal] at this ⊢
    by_cases hij : D i = D' j
    · rw [hij, mul_comm]
    · have h0 : (Vᵀ * V') i j = 0 := by
        by_contra hne
        apply hij
        rw [mul_comm] at this
        exact mul_left_cancel₀ hne this
      rw [h0, mul_zero, zero_mul]
  have h3 := half_calculus h hV hV' g g0
  have h4 := half_calculus h.symm hV' hV g g0
  have h5 : diagonal (fun i => g (D i)) * Vᵀ * V' * V'ᵀ = diagonal (fun i => g (D i)) * Vᵀ := by
    have := congrArg transpose h4
    simp only [transpose_mul, diagonal_transpose, transpose_transpose] at this
    simp only [Matrix.mul_assoc]
    exact this
  calc V * diagonal (fun i => g (D i)) * Vᵀ = V * (diagonal (fun i => g (D i)) * Vᵀ * V' * V'ᵀ) := by rw [h5, Matrix.mul_assoc]
    _ = V * (diagonal (fun i => g (D i)) * (Vᵀ * V')) * V'ᵀ := by simp only [Matrix.mul_assoc]
    _ = V * ((Vᵀ * V') * diagonal (fun i => g (D' i))) * V'ᵀ := by rw [h2]
    _ = (V * Vᵀ * V' * diagonal (fun i => g (D' i))) * V'ᵀ := by simp only [Matrix.mul_assoc]
    _ = _ := by rw [h3]

end

section
variable {m n K : Nat} {x : Matrix (Fin m) (Fin n) ℝ} {U U' : Matrix (Fin m) (Fin K) ℝ} {s s' : Fin K → ℝ} {V V' : Matrix (Fin n) (Fin K) ℝ}

/-- Singular vectors of a positive simple singular value are determined up to a common sign. -/
theorem vectors_unique (h : IsThinSVD x U s V) (h' : IsThinSVD x U' s' V') (i : Fin K) (hpos : 0 < s i) (hs : ∀ j, j ≠ i → s j ≠ s i) :
    ∃ ε : ℝ, (ε = 1 ∨ ε = -1) ∧ (∀ q, V' q i = ε * V q i) ∧ ∀ a, U' a i = ε * U a i := by
  obtain rfl := singular_unique h h'
  have hg := calculus ((gram h).symm.trans (gram h')) h.right h'.right (fun t => if t = s i ^ 2 then 1 else 0) (by
    exact if_neg (pow_pos hpos 2).ne)
  have hsq : ∀ j, (s j ^ 2 = s i ^ 2) ↔ j = i := by
    intro j
    refine ⟨fun e => ?_, fun e => by rw [e]⟩
    by_contra hne
    exact hs j hne ((sq_eq_sq₀ (h.nonneg j) (h.nonneg i)).mp e)
  have hout : ∀ W : Matrix (Fin n) (Fin K) ℝ, ∀ p q,
      (W * diagonal (fun j => if s j ^ 2 = s i ^ 2 then (1 : ℝ) else 0) * Wᵀ) p q = W p i * W q i := by
    intro W p q
    rw [mul_apply, Finset.sum_eq_single i]
    · rw [mul_diagonal, if_pos rfl, mul_one, transpose_apply]
    · intro j _ hj
      rw [mul_diagonal, if_neg (fun e => hj ((hsq j).mp e)), mul_zero, zero_mul]
    · simp
  have ho : ∀ p q, V p i * V q i = V' p i * V' q i := by
    intro p q
    rw [← hout V p q, ← hout V' p q]
    exact congrFun (congrFun hg p) q
  have hV : ∃ ε : ℝ, (ε = 1 ∨ ε = -1) ∧ ∀ q, V' q i = ε * V q i := by
    obtain ⟨p, hp⟩ := PCA.col_ne_zero h.right i
    have h1 := ho p p
    have h2 : V' p i = V p i ∨ V' p i = -V p i := by
      rw [← sq, ← sq] at h1
      exact sq_eq_sq_iff_eq_or_eq_neg.mp h1.symm
    rcases h2 with h2 | h2
    · refine ⟨1, Or.inl rfl, fun q => ?_⟩
      have := ho p q
      rw [h2] at this
      rw [one_mul]
      exact (mul_left_cancel₀ hp this).symm
    · refine ⟨-1, Or.inr rfl, fun q => ?_⟩
      have := ho p q
      rw [h2] at this
      have h3 : V p i * V q i = V p i * (-V' q i) := by rw [this]; ring
      have := mul_left_cancel₀ hp h3
      rw [this]
      ring
  obtain ⟨ε, hε, hv⟩ := hV
  refine ⟨ε, hε, hv, fun a => ?_⟩
  have h1 := congrFun (congrFun (mul_right h) a) i
  have h2 := congrFun (congrFun (mul_right h') a) i
  rw [mul_diagonal] at h1 h2
  have h3 : (x * V') a i = ε * (x * V) a i := by
    rw [mul_apply, mul_apply, Finset.mul_sum]
    refine Finset.sum_congr rfl fun q _ => ?_
    rw [hv]
    ring
  rw [h3, h1] at h2
  refine mul_right_cancel₀ hpos.ne' (h2.symm.trans ?_)
  ring

end

section
variable {n d K : Nat} (σ : Equiv.Perm (Fin n)) (A : Matrix (Fin d) (Fin d) ℝ) (c : Fin d → ℝ) (X : Matrix (Fin n) (Fin d) ℝ)

theorem centred_moved : centred (movedSamples σ A c X) = (centred X * A).submatrix σ id := by
  have h1 : centred (movedSamples σ A c X) = centred ((X * A).submatrix σ id) := PCA.centred_shift ((X * A).submatrix σ id) c
  rw [h1]
  ext i j
  have h2 : columnMean ((X * A).submatrix σ id) j = columnMean (X * A) j := by
    unfold columnMean
    congr 1
    exact Equiv.sum_comp σ fun i => (X * A) i j
  have h3 : columnMean (X * A) j = ∑ q, columnMean X q * A q j := by
    unfold columnMean
    simp only [mul_apply, div_mul_eq_mul_div, Finset.sum_mul]
    rw [← Finset.sum_div, Finset.sum_comm]
  simp only [centred, of_apply, submatrix_apply, id_eq]
  rw [h2, h3, mul_apply, mul_apply, ← Finset.sum_sub_distrib]
  refine Finset.sum_congr rfl fun q _ => ?_
  rw [of_apply]
  ring

variable {U : Matrix (Fin n) (Fin K) ℝ} {s : Fin K → ℝ} {V : Matrix (Fin d) (Fin K) ℝ}

theorem moved_svd (hA : A * Aᵀ = 1) (h : IsThinSVD (centred X) U s V) :
    IsThinSVD (centred (movedSamples σ A c X)) (U.submatrix σ id) s (Aᵀ * V) where
  left := by
    rw [← h.left]
    ext i j
    rw [mul_apply, mul_apply]
    exact Equiv.sum_comp σ fun a => Uᵀ i a * U a j
  right := by
    rw [transpose_mul, transpose_transpose, Matrix.mul_assoc, ← Matrix.mul_assoc A, hA, Matrix.one_mul, h.right]
  nonneg := h.nonneg
  sorted := h.sorted
  product := by
    rw [centred_moved, h.product, transpose_mul, transpose_transpose]
    ext i j
    rw [submatrix_apply, id_eq, ← Matrix.mul_assoc, mul_apply, mul_apply]
    refine Finset.sum_congr rfl fun q _ => ?_
    congr 1

end

end OpenML.SvdUnique
