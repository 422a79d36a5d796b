import Verif.Lemmas.LowRank

/-!
# Optimal approximation by PCA and TruncatedSVD (C121)
-/

namespace OpenML

open Matrix Spec LowRank

section
variable {n d k : Nat} (X : Matrix (Fin n) (Fin d) ℝ) (U : Matrix (Fin n) (Fin (min n d)) ℝ) (s : Fin (min n d) → ℝ)
  (V : Matrix (Fin d) (Fin (min n d)) ℝ)

/-- C121: the reconstruction of the training data from their transform by a fitted `PCA`, which is the column means plus the transformed data
times the components, is a matrix of rank at most the number of components plus a constant row. Among all such matrices none is nearer to the
data. The squared distance is the squared distance from the means minus the sum of the squared singular values. -/
theorem C121_pca (hn : 0 < n) (hsvd : IsThinSVD (centred X) U s V) (f : PCA.Fitted k d) (hf : PCA.fit k U s V = .ok f) :
    (PCA.transform f X * f.components).rank ≤ k ∧
    BestAffine k X (Matrix.of fun i j => columnMean X j + (PCA.transform f X * f.components) i j) ∧
    entrySquares (X - (Matrix.of fun i j => columnMean X j + (PCA.transform f X * f.components) i j)) =
      entrySquares (X - Matrix.of fun _ j => columnMean X j) - ∑ i, f.singular i ^ 2 := by
  obtain ⟨σ, h, hS⟩ := PCA.fit_spec hn hsvd hf
  have hC := PCA.comp_orth hsvd hS
  have hT : entrySquares (PCA.transform f X) = ∑ i, f.singular i ^ 2 := by
    rw [entrySquares, Finset.sum_comm]
    refine Finset.sum_congr rfl fun i _ => ?_
    have h1 : ∀ a, PCA.transform f X a i ^ 2 = s (Fin.castLE h i) ^ 2 * (U a (Fin.castLE h i) * U a (Fin.castLE h i)) := by
      intro a
      rw [PCA.transform_eq hsvd hS]
      rcases hS.sign (Fin.castLE h i) with h2 | h2 <;> rw [h2] <;> ring
    have h2 := congrFun (congrFun hsvd.left (Fin.castLE h i)) (Fin.castLE h i)
    rw [mul_apply, one_apply_eq] at h2
    simp only [transpose_apply] at h2
    simp only [h1]
    rw [← Finset.mul_sum, h2, mul_one, hS.sing]
  have hres : X - (Matrix.of fun i j => columnMean X j + (PCA.transform f X * f.components) i j) =
      centred X - PCA.transform f X * f.components := by
    ext i j
    simp only [Matrix.sub_apply, of_apply, centred]
    ring
  have hval : entrySquares (centred X - PCA.transform f X * f.components) = entrySquares (centred X) - ∑ i, f.singular i ^ 2 := by
    rw [residual (centred X) f.components hC, ← hT]
    have h1 : centred X * f.componentsᵀ - PCA.transform f X = 0 := sub_self (centred X * f.componentsᵀ)
    rw [h1]
    have h2 : centred X * f.componentsᵀ = PCA.transform f X := rfl
    rw [h2]
    simp [entrySquares]
  refine ⟨(rank_mul_le_left _ _).trans ((rank_le_width _).trans le_rfl), ?_, ?_⟩
  · intro c A hA
    rw [hres, hval, hS.sing]
    refine (eckart_young hsvd h (centred A) ((centred_rank A).trans hA)).trans (le_trans (le_of_eq ?_) (centred_le _))
    congr 1
    ext i j
    rcases Nat.eq_zero_or_pos n with rfl | hn
    · exact i.elim0
    have hn' : (n : ℝ) ≠ 0 := by exact_mod_cast hn.ne'
    simp only [centred, columnMean, Matrix.sub_apply, of_apply, Finset.sum_sub_distrib, Finset.sum_add_distrib, Finset.sum_const,
      Finset.card_univ, Fintype.card_fin, nsmul_eq_mul]
    field_simp
    ring
  · rw [hres, hval]
    rfl

end

/-- The hypotheses of `C121_pca` hold for the example with four samples, two features and one component. -/
example : 0 < 4 ∧ IsThinSVD (n := 2) (k := min 4 2) (centred exampleData) exampleU ![4, 2] exampleV ∧
    ∃ f, PCA.fit (n := 4) (d := 2) 1 exampleU ![4, 2] exampleV = .ok f :=
  ⟨by norm_num, example_svd,
    (C84_defined (n := 4) (d := 2) exampleData exampleU ![4, 2] exampleV (by norm_num) example_svd).mpr (by decide)⟩

section
variable {M k p : Nat} {dec : TruncatedSVD.Decompositions} (hd : dec.Correct) (X : Matrix (Fin M) (Fin (k + p)) ℝ) (iters : Nat)
  (normalizer : String) (Q0 : Matrix (Fin (k + p)) (Fin (k + p)) ℝ)
include hd

/-- C121: with as many random vectors as features, at least as many samples, and either a normalized power iteration or an invertible random
matrix, the training data transformed by a fitted `TruncatedSVD` times its components are a matrix of rank at most the number of components,
and no other such matrix is nearer to the data. -/
theorem C121_truncated_svd (hM : 0 < M) (hKM : k + p ≤ M) (hn : iters = 0 ∨ normalizer ∈ ["None", "LU", "QR"])
    (hinv : (0 < iters ∧ normalizer ≠ "None") ∨ IsUnit Q0.det) :
    ∃ f T, TruncatedSVD.fit dec "randomized" X k p iters normalizer Q0 = .ok (some f) ∧ TruncatedSVD.transform (some f) X = .ok T ∧
      (T * f.components).rank ≤ k ∧ BestLinear k X (T * f.components) := by
  obtain ⟨f, T, hf, hT, -, -, -, hres, -⟩ := C87_components hd X iters normalizer Q0 hM hKM hn hinv
  obtain ⟨U, s, V, hthin, -, heq⟩ := C87_exact hd X iters normalizer Q0 hM hKM hn hinv true
  refine ⟨f, T, hf, hT, (rank_mul_le_left _ _).trans ((rank_le_width _).trans le_rfl), fun A hA => ?_⟩
  have hs : f.singular = fun i => s (Fin.castLE (Nat.le_add_right k p) i) := by
    unfold TruncatedSVD.fit at hf
    rw [if_pos rfl, heq, Res.bind_ok] at hf
    cases hf
    rfl
  have h1 := eckart_young hthin (Nat.le_add_right k p) A hA
  rw [hs] at hres
  have h2 : ∀ B : Matrix (Fin M) (Fin (k + p)) ℝ, entrySquares B = ∑ j, ∑ i, B i j ^ 2 := fun B => by
    rw [entrySquares, Finset.sum_comm]
  rw [h2 (X - T * f.components), hres, ← h2]
  exact h1

end

/-- The hypotheses of `C121_truncated_svd` can be fulfilled: three samples with two features, one component, one additional random vector and
four normalized iterations. -/
example : ∃ dec : TruncatedSVD.Decompositions, dec.Correct ∧ 0 < 3 ∧ 1 + 1 ≤ 3 ∧ (4 = 0 ∨ "LU" ∈ ["None", "LU", "QR"]) ∧
    ((0 < 4 ∧ "LU" ≠ "None") ∨ IsUnit (0 : Matrix (Fin (1 + 1)) (Fin (1 + 1)) ℝ).det) := by
  obtain ⟨dec, hd⟩ := TruncatedSVD.exists_correct
  exact ⟨dec, hd, by norm_num, by norm_num, Or.inr (by simp), Or.inl ⟨by norm_num, by decide⟩⟩

end OpenML
