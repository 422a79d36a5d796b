import Verif.Spec.LowRank
import Verif.Props.TruncatedSVD
import Mathlib.Analysis.InnerProductSpace.PiL2

/-!
# The theorem of Eckart and Young for the sum of squares
-/

namespace OpenML.LowRank

open Matrix Spec

/-- Weights between zero and one with sum at most `k` do not select more than the `k` largest values. -/
theorem weighted_le {K k : Nat} (hk : k ≤ K) (a p : Fin K → ℝ) (ha : Antitone a) (h0 : ∀ i, 0 ≤ a i) (hp0 : ∀ i, 0 ≤ p i)
    (hp1 : ∀ i, p i ≤ 1) (hsum : ∑ i, p i ≤ k) : ∑ i, a i * p i ≤ ∑ i : Fin k, a (Fin.castLE hk i) := by
  have hsub : ∀ b : Fin K → ℝ, ∑ i : Fin k, b (Fin.castLE hk i) = ∑ i : Fin K, if i.val < k then b i else 0 := by
    intro b
    obtain ⟨q, rfl⟩ := Nat.exists_eq_add_of_le hk
    rw [Fin.sum_univ_add]
    have h1 : ∀ i : Fin k, (if (Fin.castAdd q i).val < k then b (Fin.castAdd q i) else 0) = b (Fin.castLE hk i) := by
      intro i
      rw [if_pos (by simp)]
      rfl
    have h2 : ∀ i : Fin q, (if (Fin.natAdd k i).val < k then b (Fin.natAdd k i) else 0) = 0 := by
      intro i
      rw [if_neg (by simp)]
    simp only [h1, h2, Finset.sum_const_zero, add_zero]
  obtain ⟨τ, hτ0, hτ1, hτ2⟩ : ∃ τ : ℝ, 0 ≤ τ ∧ (∀ i : Fin K, i.val < k → τ ≤ a i) ∧ ∀ i : Fin K, k ≤ i.val → a i ≤ τ := by
    by_cases h : k < K
    · exact ⟨a ⟨k, h⟩, h0 _, fun i hi => ha (Fin.le_def.mpr hi.le), fun i hi => ha (Fin.le_def.mpr hi)⟩
    · exact ⟨0, le_refl _, fun i _ => h0 i, fun i hi => absurd i.2 (by omega)⟩
  have hcount : ∑ i : Fin K, (if i.val < k then (1 : ℝ) else 0) = k := by
    rw [← hsub fun _ => 1]
    simp
  have hterm : ∀ i, a i * p i ≤ (if i.val < k then a i else 0) + τ * (p i - if i.val < k then 1 else 0) := by
    intro i
    split
    · rename_i h
      nlinarith [mul_nonneg (sub_nonneg.mpr (hτ1 i h)) (sub_nonneg.mpr (hp1 i))]
    · rename_i h
      nlinarith [mul_le_mul_of_nonneg_right (hτ2 i (not_lt.mp h)) (hp0 i)]
  refine (Finset.sum_le_sum fun i _ => hterm i).trans ?_
  rw [Finset.sum_add_distrib, ← Finset.mul_sum, Finset.sum_sub_distrib, hcount, hsub a]
  nlinarith [mul_nonneg hτ0 (sub_nonneg.mpr hsum)]

/-- A matrix of rank at most `k` is its own projection on at most `k` orthonormal vectors. -/
theorem factor {m n k : Nat} (A : Matrix (Fin m) (Fin n) ℝ) (hA : A.rank ≤ k) :
    ∃ (r : Nat) (Q : Matrix (Fin r) (Fin n) ℝ), r ≤ k ∧ Q * Qᵀ = 1 ∧ A = A * Qᵀ * Q := by
  let e : (Fin n → ℝ) ≃ₗ[ℝ] EuclideanSpace ℝ (Fin n) := (WithLp.linearEquiv 2 ℝ (Fin n → ℝ)).symm
  let S : Submodule ℝ (EuclideanSpace ℝ (Fin n)) := (Submodule.span ℝ (Set.range A.row)).map e.toLinearMap
  have hr : Module.finrank ℝ S = A.rank := by
    rw [rank_eq_finrank_span_row]
    exact LinearEquiv.finrank_map_eq e _
  let b := stdOrthonormalBasis ℝ S
  let Q : Matrix (Fin (Module.finrank ℝ S)) (Fin n) ℝ := Matrix.of fun j q => (b j : EuclideanSpace ℝ (Fin n)).ofLp q
  have hin : ∀ x y : EuclideanSpace ℝ (Fin n), inner ℝ x y = ∑ q, x.ofLp q * y.ofLp q := by
    intro x y
    rw [EuclideanSpace.inner_eq_star_dotProduct, star_trivial, dotProduct_comm]
    rfl
  refine ⟨_, Q, hr ▸ hA, ?_, ?_⟩
  · ext i j
    have h1 := (orthonormal_iff_ite.mp b.orthonormal) i j
    rw [Submodule.coe_inner, hin] at h1
    rw [mul_apply, one_apply]
    exact h1
  · ext i q
    have hmem : e (A i) ∈ S := Submodule.mem_map_of_mem (Submodule.subset_span ⟨i, rfl⟩)
    have h1 := b.sum_repr' ⟨e (A i), hmem⟩
    have h2 := congrArg (fun v : S => (v : EuclideanSpace ℝ (Fin n)).ofLp q) h1
    simp only [Submodule.coe_sum, Submodule.coe_smul, WithLp.ofLp_sum, WithLp.ofLp_smul, Finset.sum_apply, Pi.smul_apply, smul_eq_mul,
      Submodule.coe_inner, hin] at h2
    rw [mul_apply]
    refine Eq.trans ?_ (h2.symm.trans ?_)
    · rfl
    · refine Finset.sum_congr rfl fun j _ => ?_
      rw [mul_apply]
      congr 1
      exact Finset.sum_congr rfl fun _ _ => mul_comm _ _

theorem entrySquares_trace {m n : Nat} (A : Matrix (Fin m) (Fin n) ℝ) : entrySquares A = (Aᵀ * A).trace := by
  rw [← TruncatedSVD.sum_sq_eq_trace, entrySquares, Finset.sum_comm]

theorem entrySquares_nonneg {m n : Nat} (A : Matrix (Fin m) (Fin n) ℝ) : 0 ≤ entrySquares A :=
  Finset.sum_nonneg fun _ _ => Finset.sum_nonneg fun _ _ => sq_nonneg _

/-- The nearest matrix with rows in the span of orthonormal vectors is the projection. -/
theorem residual {m n r : Nat} (x : Matrix (Fin m) (Fin n) ℝ) (Q : Matrix (Fin r) (Fin n) ℝ) (hQ : Q * Qᵀ = 1) (B : Matrix (Fin m) (Fin r) ℝ) :
    entrySquares (x - B * Q) = entrySquares x - entrySquares (x * Qᵀ) + entrySquares (x * Qᵀ - B) := by
  simp only [entrySquares_trace, transpose_sub, transpose_mul, transpose_transpose, Matrix.sub_mul, Matrix.mul_sub, trace_sub]
  have h1 : (xᵀ * (B * Q)).trace = (Q * xᵀ * B).trace := by
    rw [← Matrix.mul_assoc, trace_mul_comm, Matrix.mul_assoc]
  have h2 : (Qᵀ * Bᵀ * x).trace = (Bᵀ * (x * Qᵀ)).trace := by
    rw [Matrix.mul_assoc, trace_mul_comm, Matrix.mul_assoc]
  have h3 : (Qᵀ * Bᵀ * (B * Q)).trace = (Bᵀ * B).trace := by
    rw [Matrix.mul_assoc, trace_mul_comm]
    simp only [Matrix.mul_assoc]
    rw [hQ, Matrix.mul_one]
  rw [h1, h2, h3]
  ring

/-- The sum of squares of the projection on `r` orthonormal vectors is at most that of the `r` largest singular values. -/
theorem projection_le {m n K k r : Nat} {x : Matrix (Fin m) (Fin n) ℝ} {U : Matrix (Fin m) (Fin K) ℝ} {s : Fin K → ℝ}
    {V : Matrix (Fin n) (Fin K) ℝ} (h : IsThinSVD x U s V) (hk : k ≤ K) (hr : r ≤ k) (Q : Matrix (Fin r) (Fin n) ℝ) (hQ : Q * Qᵀ = 1) :
    entrySquares (x * Qᵀ) ≤ ∑ i : Fin k, s (Fin.castLE hk i) ^ 2 := by
  have h1 : entrySquares (x * Qᵀ) = ∑ i, s i ^ 2 * ∑ j, (Q * V) j i ^ 2 := by
    have h2 : x * Qᵀ = U * (diagonal s * (Q * V)ᵀ) := by
      conv_lhs => rw [h.product]
      rw [transpose_mul]
      simp only [Matrix.mul_assoc]
    have h3 : (x * Qᵀ)ᵀ * (x * Qᵀ) = (diagonal s * (Q * V)ᵀ)ᵀ * (diagonal s * (Q * V)ᵀ) := by
      rw [h2, transpose_mul U, Matrix.mul_assoc, ← Matrix.mul_assoc Uᵀ, h.left, Matrix.one_mul]
    rw [entrySquares_trace, h3, ← entrySquares_trace, entrySquares]
    refine Finset.sum_congr rfl fun i _ => ?_
    rw [Finset.mul_sum]
    refine Finset.sum_congr rfl fun j _ => ?_
    rw [diagonal_mul, transpose_apply, mul_pow]
  rw [h1]
  refine weighted_le hk (fun i => s i ^ 2) (fun i => ∑ j, (Q * V) j i ^ 2) (fun i j hij => pow_le_pow_left₀ (h.nonneg j) (h.sorted hij) 2)
    (fun i => sq_nonneg _) (fun i => Finset.sum_nonneg fun _ _ => sq_nonneg _) (fun i => ?_) ?_
  · have h2 := PCA.bessel (V := Qᵀ) (by rw [transpose_transpose]; exact hQ) fun q => V q i
    rw [transpose_transpose] at h2
    have h3 : (fun q => V q i) ⬝ᵥ (fun q => V q i) = 1 := by
      have := congrFun (congrFun h.right i) i
      rw [mul_apply, one_apply_eq] at this
      exact this
    rw [h3] at h2
    exact h2
  · rw [Finset.sum_comm]
    have h2 : ∀ j, ∑ i, (Q * V) j i ^ 2 ≤ 1 := by
      intro j
      have h3 := PCA.bessel h.right (Q j)
      have h4 : Q j ⬝ᵥ Q j = 1 := by
        have := congrFun (congrFun hQ j) j
        rw [mul_apply, one_apply_eq] at this
        exact this
      rw [h4] at h3
      refine le_trans (le_of_eq (Finset.sum_congr rfl fun i _ => ?_)) h3
      congr 1
      rw [mul_apply]
      exact Finset.sum_congr rfl fun _ _ => mul_comm _ _
    refine (Finset.sum_le_sum fun j _ => h2 j).trans ?_
    simp only [Finset.sum_const, Finset.card_univ, Fintype.card_fin, nsmul_eq_mul, mul_one]
    exact_mod_cast hr

/-- The theorem of Eckart and Young. -/
theorem eckart_young {m n K k : Nat} {x : Matrix (Fin m) (Fin n) ℝ} {U : Matrix (Fin m) (Fin K) ℝ} {s : Fin K → ℝ}
    {V : Matrix (Fin n) (Fin K) ℝ} (h : IsThinSVD x U s V) (hk : k ≤ K) (A : Matrix (Fin m) (Fin n) ℝ) (hA : A.rank ≤ k) :
    entrySquares x - ∑ i : Fin k, s (Fin.castLE hk i) ^ 2 ≤ entrySquares (x - A) := by
  obtain ⟨r, Q, hr, hQ, hAQ⟩ := factor A hA
  rw [hAQ, residual x Q hQ]
  have h1 := projection_le h hk hr Q hQ
  have h2 := entrySquares_nonneg (x * Qᵀ - A * Qᵀ)
  linarith

/-- Removing the means of the columns does not increase the sum of squares. -/
theorem centred_le {m n : Nat} (A : Matrix (Fin m) (Fin n) ℝ) : entrySquares (centred A) ≤ entrySquares A := by
  unfold entrySquares
  rw [Finset.sum_comm, Finset.sum_comm (f := fun i j => A i j ^ 2)]
  refine Finset.sum_le_sum fun j _ => ?_
  rcases Nat.eq_zero_or_pos m with rfl | hm
  · simp
  have hm' : (m : ℝ) ≠ 0 := by exact_mod_cast hm.ne'
  have h1 : ∑ i, (centred A i j) ^ 2 = ∑ i, A i j ^ 2 - m * columnMean A j ^ 2 := by
    have h2 : ∀ i, (centred A i j) ^ 2 = A i j ^ 2 - 2 * columnMean A j * A i j + columnMean A j ^ 2 := by
      intro i
      simp only [centred, of_apply]
      ring
    have h3 : ∑ i, A i j = m * columnMean A j := by
      unfold columnMean
      field_simp
    simp only [h2, Finset.sum_add_distrib, Finset.sum_sub_distrib, ← Finset.mul_sum, Finset.sum_const, Finset.card_univ,
      Fintype.card_fin, nsmul_eq_mul, h3]
    ring
  rw [h1]
  have : 0 ≤ (m : ℝ) * columnMean A j ^ 2 := by positivity
  linarith

/-- Centring is multiplication by a matrix. -/
theorem centred_rank {m n : Nat} (A : Matrix (Fin m) (Fin n) ℝ) : (centred A).rank ≤ A.rank := by
  have h : centred A = (Matrix.of fun i q => (if i = q then (1 : ℝ) else 0) - 1 / m) * A := by
    ext i j
    simp only [centred, columnMean, of_apply, mul_apply, sub_mul, Finset.sum_sub_distrib, ite_mul, one_mul, zero_mul, Finset.sum_ite_eq,
      Finset.mem_univ, if_true, Finset.sum_div]
    congr 1
    exact Finset.sum_congr rfl fun q _ => by ring
  rw [h]
  exact rank_mul_le_right _ _

end OpenML.LowRank
