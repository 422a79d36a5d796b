import Verif.Lemmas.SvdStability
import Verif.Props.LowRank
import Verif.Props.TruncatedSVD

/-!
# C171: stability of PCA and TruncatedSVD
-/

namespace OpenML

open Spec Matrix SvdStability PCA

section
variable {n d k : Nat} (X X' : Matrix (Fin n) (Fin d) ℝ) (U U' : Matrix (Fin n) (Fin (min n d)) ℝ) (s s' : Fin (min n d) → ℝ)
  (V V' : Matrix (Fin d) (Fin (min n d)) ℝ) (hsvd : IsThinSVD (centred X) U s V) (hsvd' : IsThinSVD (centred X') U' s' V')

include hsvd hsvd'

/-- C171: the standard deviations along the components and the singular values of two data sets of the same size differ at most by the
total standard deviation, or the length, of the centred difference of the data sets. -/
theorem C171_variances (hn : 2 ≤ n) (f f' : Fitted k d) (hf : PCA.fit k U s V = .ok f) (hf' : PCA.fit k U' s' V' = .ok f') :
    ∃ e e', f.explained = some e ∧ f'.explained = some e' ∧
      ∀ i, |Real.sqrt (e i) - Real.sqrt (e' i)| ≤ Real.sqrt (totalVar (X - X')) ∧
        |f.singular i - f'.singular i| ≤ entrySize (centred (X - X')) := by
  obtain ⟨σ, h, hS⟩ := fit_spec (by omega) hsvd hf
  obtain ⟨σ', h', hS'⟩ := fit_spec (by omega) hsvd' hf'
  have hn1 : n ≠ 1 := by omega
  have hpos : (0 : ℝ) < (n : ℝ) - 1 := by
    have : (2 : ℝ) ≤ n := by exact_mod_cast hn
    linarith
  refine ⟨_, _, by rw [hS.expl, explainedAll, if_neg hn1]; rfl, by rw [hS'.expl, explainedAll, if_neg hn1]; rfl, fun i => ?_⟩
  have h1 := weyl_abs hsvd hsvd' (Fin.castLE h i)
  rw [centred_sub] at h1
  constructor
  · dsimp only
    rw [Real.sqrt_div (sq_nonneg _), Real.sqrt_div (sq_nonneg _), Real.sqrt_sq (hsvd.nonneg _), Real.sqrt_sq (hsvd'.nonneg _), ← sub_div,
      abs_div, abs_of_nonneg (Real.sqrt_nonneg _), totalVar_eq, Real.sqrt_div (entrySquares_nonneg _)]
    exact div_le_div_of_nonneg_right h1 (Real.sqrt_nonneg _)
  · rw [hS.sing, hS'.sing]
    exact h1

/-- C171: components fitted to one data set capture almost as much of the variance of another as its own components. -/
theorem C171_captured (hn : 2 ≤ n) (f f' : Fitted k d) (hf : PCA.fit k U s V = .ok f) (hf' : PCA.fit k U' s' V' = .ok f') :
    Real.sqrt (totalVar (X' * f'.componentsᵀ)) ≤ Real.sqrt (totalVar (X' * f.componentsᵀ)) + 2 * Real.sqrt (totalVar (X - X')) := by
  obtain ⟨σ, h, hS⟩ := fit_spec (by omega) hsvd hf
  obtain ⟨σ', h', hS'⟩ := fit_spec (by omega) hsvd' hf'
  have hpos : (0 : ℝ) < (n : ℝ) - 1 := by
    have : (2 : ℝ) ≤ n := by exact_mod_cast hn
    linarith
  have hc : ∀ (Y : Matrix (Fin n) (Fin d) ℝ) (Q : Matrix (Fin k) (Fin d) ℝ), centred (Y * Qᵀ) = centred Y * Qᵀ := by
    intro Y Q
    ext a i
    simp only [centred, columnMean, mul_apply, of_apply, transpose_apply, sub_mul, Finset.sum_sub_distrib]
    congr 1
    rw [Finset.sum_comm, Finset.sum_div]
    exact Finset.sum_congr rfl fun q _ => by rw [← Finset.sum_mul]; ring
  have e : ∀ (Y : Matrix (Fin n) (Fin d) ℝ) (Q : Matrix (Fin k) (Fin d) ℝ),
      Real.sqrt (totalVar (Y * Qᵀ)) = entrySize (centred Y * Qᵀ) / Real.sqrt ((n : ℝ) - 1) := by
    intro Y Q
    rw [totalVar_eq, hc, Real.sqrt_div (entrySquares_nonneg _)]
    rfl
  have e' : Real.sqrt (totalVar (X - X')) = entrySize (centred (X - X')) / Real.sqrt ((n : ℝ) - 1) := by
    rw [totalVar_eq, Real.sqrt_div (entrySquares_nonneg _)]
    rfl
  have hstep : ∀ (Y Y' : Matrix (Fin n) (Fin d) ℝ) (Q : Matrix (Fin k) (Fin d) ℝ), Q * Qᵀ = 1 →
      entrySize (centred Y * Qᵀ) ≤ entrySize (centred Y' * Qᵀ) + entrySize (centred Y - centred Y') := by
    intro Y Y' Q hQ
    have h1 := entrySize_add (centred Y' * Qᵀ) ((centred Y - centred Y') * Qᵀ)
    rw [← Matrix.add_mul, add_sub_cancel] at h1
    exact h1.trans (add_le_add_right (Real.sqrt_le_sqrt (project_le _ _ hQ)) _)
  have hbest : entrySize (centred X * f'.componentsᵀ) ≤ entrySize (centred X * f.componentsᵀ) := by
    refine Real.sqrt_le_sqrt ((LowRank.projection_le hsvd h le_rfl _ (comp_orth hsvd' hS')).trans_eq ?_)
    rw [entrySquares, Finset.sum_comm]
    refine Finset.sum_congr rfl fun i _ => ?_
    have h1 : ∀ a, (centred X * f.componentsᵀ) a i = s (Fin.castLE h i) * (U a (Fin.castLE h i) * σ (Fin.castLE h i)) :=
      fun a => transform_eq hsvd hS a i
    simp only [h1, mul_pow]
    have h2 := congrFun (congrFun hsvd.left (Fin.castLE h i)) (Fin.castLE h i)
    rw [mul_apply, one_apply_eq] at h2
    have h3 : σ (Fin.castLE h i) ^ 2 = 1 := by rw [sq]; exact sign_mul (hS.sign _)
    rw [h3, ← Finset.mul_sum]
    simp only [mul_one, transpose_apply, ← sq] at h2 ⊢
    rw [h2, mul_one]
  rw [e, e, e', mul_div_assoc', ← add_div]
  refine div_le_div_of_nonneg_right ?_ (Real.sqrt_nonneg _)
  have h4 := hstep X' X f'.components (comp_orth hsvd' hS')
  have h5 := hstep X X' f.components (comp_orth hsvd hS)
  rw [entrySize_comm (centred X') (centred X), centred_sub] at h4
  rw [centred_sub] at h5
  linarith

/-- C171: components of two data sets with variances that differ by at least `δ` are nearly orthogonal: the sum of squares of their
products is at most the sum of squares of the change of the covariance matrix divided by `δ ^ 2`. -/
theorem C171_angles {k' : Nat} (hn : 2 ≤ n) (f : Fitted k d) (f' : Fitted k' d) (hf : PCA.fit k U s V = .ok f)
    (hf' : PCA.fit k' U' s' V' = .ok f') (e : Fin k → ℝ) (e' : Fin k' → ℝ) (he : f.explained = some e) (he' : f'.explained = some e')
    (I : Finset (Fin k)) (J : Finset (Fin k')) (δ : ℝ) (h0 : 0 ≤ δ) (hδ : ∀ i ∈ I, ∀ j ∈ J, δ ≤ |e i - e' j|) :
    δ ^ 2 * ∑ i ∈ I, ∑ j ∈ J, (f.components i ⬝ᵥ f'.components j) ^ 2 ≤ entrySquares (sampleCov X - sampleCov X') := by
  obtain ⟨σ, h, hS⟩ := fit_spec (by omega) hsvd hf
  obtain ⟨σ', h', hS'⟩ := fit_spec (by omega) hsvd' hf'
  have hn1 : n ≠ 1 := by omega
  have hE : e = fun i => s (Fin.castLE h i) ^ 2 / ((n : ℝ) - 1) := by
    have := hS.expl
    rw [he, explainedAll, if_neg hn1] at this
    exact Option.some.inj this
  have hE' : e' = fun i => s' (Fin.castLE h' i) ^ 2 / ((n : ℝ) - 1) := by
    have := hS'.expl
    rw [he', explainedAll, if_neg hn1] at this
    exact Option.some.inj this
  have hC := cov_comp hsvd hS
  have hC' := cov_comp hsvd' hS'
  rw [← hE] at hC
  rw [← hE'] at hC'
  have hsym : (sampleCov X)ᵀ = sampleCov X := by
    ext a b
    simp only [transpose_apply, sampleCov, of_apply]
    congr 1
    exact Finset.sum_congr rfl fun q _ => mul_comm _ _
  have key : f.components * (sampleCov X - sampleCov X') * f'.componentsᵀ =
      Matrix.of fun i j => (e i - e' j) * (f.components i ⬝ᵥ f'.components j) := by
    have h1 : f.components * sampleCov X = diagonal e * f.components := by
      have := congrArg Matrix.transpose hC
      rwa [transpose_mul, transpose_mul, transpose_transpose, hsym, diagonal_transpose] at this
    rw [Matrix.mul_sub, Matrix.sub_mul, h1, Matrix.mul_assoc _ (sampleCov X'), hC', Matrix.mul_assoc, ← Matrix.mul_assoc f.components]
    ext i j
    rw [Matrix.sub_apply, diagonal_mul, mul_diagonal, of_apply, mul_apply]
    simp only [transpose_apply, dotProduct]
    ring
  have h2 := (project_le _ _ (comp_orth hsvd' hS')).trans (project_left_le (sampleCov X - sampleCov X') _ (comp_orth hsvd hS))
  rw [key] at h2
  refine le_trans ?_ h2
  rw [Finset.mul_sum]
  have h3 : ∀ i j, 0 ≤ ((e i - e' j) * (f.components i ⬝ᵥ f'.components j)) ^ 2 := fun i j => sq_nonneg _
  refine le_trans (Finset.sum_le_sum fun i hi => ?_) (Finset.sum_le_sum_of_subset_of_nonneg (Finset.subset_univ I)
    fun i _ _ => Finset.sum_nonneg fun j _ => h3 i j)
  rw [Finset.mul_sum]
  refine le_trans (Finset.sum_le_sum fun j hj => ?_) (Finset.sum_le_sum_of_subset_of_nonneg (Finset.subset_univ J) fun j _ _ => h3 i j)
  rw [of_apply, mul_pow]
  refine mul_le_mul_of_nonneg_right ?_ (sq_nonneg _)
  rw [← sq_abs (e i - e' j)]
  exact pow_le_pow_left₀ h0 (hδ i hi j hj) 2

/-- C171: a component whose variance differs by at least `δ` from those of all but one component of another data set has almost the
direction of that one. -/
theorem C171_direction (hn : 2 ≤ n) (f : Fitted k d) (f' : Fitted d d) (hf : PCA.fit k U s V = .ok f)
    (hf' : PCA.fit d U' s' V' = .ok f') (e : Fin k → ℝ) (e' : Fin d → ℝ) (he : f.explained = some e) (he' : f'.explained = some e')
    (i : Fin k) (p : Fin d) (δ : ℝ) (h0 : 0 ≤ δ) (hδ : ∀ j, j ≠ p → δ ≤ |e i - e' j|) :
    δ ^ 2 * (1 - (f.components i ⬝ᵥ f'.components p) ^ 2) ≤ entrySquares (sampleCov X - sampleCov X') := by
  have h1 := C171_angles X X' U U' s s' V V' hsvd hsvd' hn f f' hf hf' e e' he he' {i} (Finset.univ.erase p) δ h0
    (by
      intro a ha j hj
      rw [Finset.mem_singleton.mp ha]
      exact hδ j (Finset.ne_of_mem_erase hj))
  obtain ⟨σ, h, hS⟩ := fit_spec (by omega) hsvd hf
  obtain ⟨σ', h', hS'⟩ := fit_spec (by omega) hsvd' hf'
  have ho := comp_orth hsvd hS
  have ho' := mul_eq_one_comm.mp (comp_orth hsvd' hS')
  have h2 : ∑ j, (f.components i ⬝ᵥ f'.components j) ^ 2 = 1 := by
    have h3 : ∀ j, f.components i ⬝ᵥ f'.components j = (f'.components *ᵥ f.components i) j := fun j => dotProduct_comm _ _
    have h4 : ∑ j, (f'.components *ᵥ f.components i) j ^ 2 = (f'.components *ᵥ f.components i) ⬝ᵥ (f'.components *ᵥ f.components i) := by
      simp [dotProduct, sq]
    simp only [h3]
    rw [h4, dotProduct_mulVec, ← mulVec_transpose, mulVec_mulVec, ho', one_mulVec]
    have := congrFun (congrFun ho i) i
    rwa [mul_apply, one_apply_eq] at this
  rw [Finset.sum_singleton, Finset.sum_erase_eq_sub (Finset.mem_univ p), h2] at h1
  exact h1

end

/-- C171: the singular values of `TruncatedSVD` for two data sets differ at most by the length of the difference of the data sets, whatever
the random vectors, the iterations and the normalizers of the two fits, provided that there are as many random vectors as features. -/
theorem C171_truncated {M k p : Nat} {dec : TruncatedSVD.Decompositions} (hd : dec.Correct) (X X' : Matrix (Fin M) (Fin (k + p)) ℝ)
    (iters iters' : Nat) (normalizer normalizer' : String) (Q Q' : Matrix (Fin (k + p)) (Fin (k + p)) ℝ) (hM : 0 < M) (hKM : k + p ≤ M)
    (hn : iters = 0 ∨ normalizer ∈ ["None", "LU", "QR"]) (hn' : iters' = 0 ∨ normalizer' ∈ ["None", "LU", "QR"])
    (hinv : (0 < iters ∧ normalizer ≠ "None") ∨ IsUnit Q.det) (hinv' : (0 < iters' ∧ normalizer' ≠ "None") ∨ IsUnit Q'.det) :
    ∃ f f', TruncatedSVD.fit dec "randomized" X k p iters normalizer Q = .ok (some f) ∧
      TruncatedSVD.fit dec "randomized" X' k p iters' normalizer' Q' = .ok (some f') ∧
      ∀ i, |f.singular i - f'.singular i| ≤ entrySize (X - X') := by
  obtain ⟨U, s, V, h1, -, h2⟩ := C87_exact hd X iters normalizer Q hM hKM hn hinv true
  obtain ⟨U', s', V', h1', -, h2'⟩ := C87_exact hd X' iters' normalizer' Q' hM hKM hn' hinv' true
  unfold TruncatedSVD.fit
  rw [if_pos rfl, if_pos rfl, h2, h2', Res.bind_ok, Res.bind_ok]
  exact ⟨_, _, rfl, rfl, fun i => weyl_abs h1 h1' _⟩

namespace SvdStability

/-- The example data with the first feature multiplied by three halves. -/
def stretched : Matrix (Fin 4) (Fin 2) ℝ := !![3, 1; 3, -1; -3, 1; -3, -1]

theorem stretched_svd : IsThinSVD (centred stretched) exampleU ![6, 2] exampleV := by
  have hc : centred stretched = stretched := by
    ext i j
    fin_cases i <;> fin_cases j <;> norm_num [centred, columnMean, stretched, Fin.sum_univ_succ]
  rw [hc]
  have h := example_svd
  refine ⟨h.left, h.right, ?_, ?_, ?_⟩
  · intro i
    fin_cases i <;> norm_num
  · intro i j hij
    fin_cases i <;> fin_cases j <;> simp at hij ⊢ <;> norm_num
  · rw [exampleV, transpose_one, Matrix.mul_one]
    ext i j
    rw [mul_diagonal]
    fin_cases i <;> fin_cases j <;> norm_num [exampleU, stretched]

/-- Fits of two components of data with the given singular values. -/
theorem example_fit (X : Matrix (Fin 4) (Fin 2) ℝ) (s : Fin 2 → ℝ)
    (h : IsThinSVD (n := 2) (k := min 4 2) (centred X) exampleU s exampleV) :
    ∃ f, PCA.fit (n := 4) (d := 2) 2 exampleU s exampleV = .ok f ∧ f.explained = some fun i => s i ^ 2 / 3 := by
  obtain ⟨f, hf⟩ := (C84_defined (n := 4) (d := 2) (k := 2) X exampleU s exampleV (by norm_num) h).mpr (by decide)
  obtain ⟨σ, h1, hS⟩ := fit_spec (by omega) h hf
  refine ⟨f, hf, ?_⟩
  rw [hS.expl, explainedAll, if_neg (by norm_num)]
  refine congrArg some (funext fun i => ?_)
  norm_num

end SvdStability

/-- The hypotheses of the theorems on PCA hold for two data sets of four samples and two components; the second component of the second
data set has a variance that differs by four from that of the first component of the first. -/
example : ∃ (f f' : Fitted 2 2) (e e' : Fin 2 → ℝ), IsThinSVD (n := 2) (k := min 4 2) (centred exampleData) exampleU ![4, 2] exampleV ∧
    IsThinSVD (n := 2) (k := min 4 2) (centred stretched) exampleU ![6, 2] exampleV ∧ 2 ≤ 4 ∧
    PCA.fit (n := 4) (d := 2) 2 exampleU ![4, 2] exampleV = .ok f ∧ PCA.fit (n := 4) (d := 2) 2 exampleU ![6, 2] exampleV = .ok f' ∧
    f.explained = some e ∧ f'.explained = some e' ∧ ∀ j : Fin 2, j ≠ 0 → 4 ≤ |e 0 - e' j| := by
  obtain ⟨f, hf, he⟩ := example_fit exampleData ![4, 2] example_svd
  obtain ⟨f', hf', he'⟩ := example_fit stretched ![6, 2] stretched_svd
  refine ⟨f, f', _, _, example_svd, stretched_svd, by norm_num, hf, hf', he, he', fun j hj => ?_⟩
  fin_cases j
  · exact absurd rfl hj
  · norm_num [abs_of_pos]

/-- The hypotheses of the theorem on truncated decompositions hold for three samples with two features, with different iterations. -/
example : ∃ dec : TruncatedSVD.Decompositions, dec.Correct ∧ 0 < 3 ∧ 1 + 1 ≤ 3 ∧ "LU" ∈ ["None", "LU", "QR"] ∧ (0 < 4 ∧ "LU" ≠ "None") ∧
    IsUnit (!![1, 2; 0, 3] : Matrix (Fin 2) (Fin 2) ℝ).det := by
  obtain ⟨dec, hd⟩ := TruncatedSVD.exists_correct
  exact ⟨dec, hd, by norm_num, by norm_num, by simp, ⟨by norm_num, by decide⟩, by norm_num [Matrix.det_fin_two]⟩

end OpenML
