import Verif.Lemmas.SvdUnique
import Verif.Props.PCACov

/-!
# What PCA returns does not depend on the decomposition, the order of the samples and the coordinates (C124)
-/

namespace OpenML

open Matrix Spec PCA SvdUnique

section
variable {n d k : Nat} (X : Matrix (Fin n) (Fin d) ℝ) (U U' : Matrix (Fin n) (Fin (min n d)) ℝ) (s s' : Fin (min n d) → ℝ)
  (V V' : Matrix (Fin d) (Fin (min n d)) ℝ) (A : Matrix (Fin d) (Fin d) ℝ) (c : Fin d → ℝ)

/-- C124: fit two objects, one on data and one on the same samples in another order, rotated or reflected and shifted, with any two correct
decompositions (also for the same data). The singular values, the explained variances, their ratios and the noise variance are equal. -/
theorem C124_values (hn : 0 < n) (σ : Equiv.Perm (Fin n)) (hA : A * Aᵀ = 1) (hsvd : IsThinSVD (centred X) U s V)
    (hsvd' : IsThinSVD (centred (movedSamples σ A c X)) U' s' V') (f f' : Fitted k d) (hf : PCA.fit k U s V = .ok f)
    (hf' : PCA.fit k U' s' V' = .ok f') :
    f'.singular = f.singular ∧ f'.explained = f.explained ∧ f'.ratio = f.ratio ∧ f'.noise = f.noise := by
  obtain rfl := singular_unique (moved_svd σ A c X hA hsvd) hsvd'
  obtain ⟨τ, h, hS⟩ := fit_spec hn hsvd hf
  obtain ⟨τ', h', hS'⟩ := fit_spec hn hsvd' hf'
  exact ⟨by rw [hS.sing, hS'.sing], by rw [hS.expl, hS'.expl], by rw [hS.rat, hS'.rat], by rw [hS.noi, hS'.noi]⟩

/-- C124: if the singular values of the components are positive and different from all others, the components are determined by the data,
including their signs: they are the same for any correct decomposition. Rotating or reflecting and shifting the data rotates the components, and
the transform of the training data does not change. -/
theorem C124_components (hn : 0 < n) (hA : A * Aᵀ = 1) (hsvd : IsThinSVD (centred X) U s V)
    (hsvd' : IsThinSVD (centred (movedSamples (Equiv.refl _) A c X)) U' s' V') (f f' : Fitted k d) (hf : PCA.fit k U s V = .ok f)
    (hf' : PCA.fit k U' s' V' = .ok f')
    (hs : ∀ i : Fin (min n d), i.val < k → 0 < s i ∧ ∀ j, j ≠ i → s j ≠ s i) :
    f'.components = f.components * A ∧ transform f' (movedSamples (Equiv.refl _) A c X) = transform f X := by
  have hm := moved_svd (Equiv.refl _) A c X hA hsvd
  obtain ⟨τ, h, hS⟩ := fit_spec hn hsvd hf
  obtain ⟨τ', h', hS'⟩ := fit_spec hn hsvd' hf'
  have hcomp : f'.components = f.components * A := by
    ext i q
    obtain ⟨ε, hε, hv, hu⟩ := vectors_unique hm hsvd' (Fin.castLE h i) (hs _ i.2).1 (hs _ i.2).2
    have hτ : τ' (Fin.castLE h i) * ε = τ (Fin.castLE h i) := by
      obtain ⟨p, hp0, hp⟩ := hS.top (Fin.castLE h i)
      obtain ⟨p', hp0', hp'⟩ := hS'.top (Fin.castLE h i)
      have habs : ∀ a, |U' a (Fin.castLE h i) * τ' (Fin.castLE h i)| = |U a (Fin.castLE h i) * τ (Fin.castLE h i)| := by
        intro a
        rw [hu a, abs_mul, abs_mul, abs_mul]
        have e : ∀ t : ℝ, t = 1 ∨ t = -1 → |t| = 1 := by rintro t (rfl | rfl) <;> simp
        rw [e ε hε, e _ (hS.sign _), e _ (hS'.sign _), one_mul]
        rfl
      have hpp : p = p' := by
        have h1 := (hp p').1
        have h2 := (hp' p).1
        rw [habs, abs_of_pos hp0] at h2
        rw [← habs, abs_of_pos hp0'] at h1
        have h3 := le_antisymm h1 h2
        apply le_antisymm
        · exact (hp p').2 (by rw [← habs, abs_of_pos hp0', h3])
        · exact (hp' p).2 (by rw [habs, abs_of_pos hp0, h3])
      subst hpp
      have e3 : (U.submatrix (Equiv.refl (Fin n)) id) p (Fin.castLE h i) = U p (Fin.castLE h i) := rfl
      rw [hu p, e3] at hp0'
      rcases hε with rfl | rfl <;> rcases hS.sign (Fin.castLE h i) with e1 | e1 <;> rcases hS'.sign (Fin.castLE h i) with e2 | e2 <;>
        rw [e1] at hp0 ⊢ <;> rw [e2] at hp0' ⊢ <;> first | (exfalso; linarith) | norm_num
    rw [hS'.comp, of_apply, mul_apply, hv q, ← mul_assoc, hτ, hS.comp, mul_apply, Finset.mul_sum]
    refine Finset.sum_congr rfl fun j _ => ?_
    rw [of_apply, transpose_apply]
    ring
  refine ⟨hcomp, ?_⟩
  unfold transform
  rw [center_eq, center_eq, centred_moved, hcomp, transpose_mul]
  have e : (centred X * A).submatrix (Equiv.refl (Fin n)) id = centred X * A := rfl
  rw [e, Matrix.mul_assoc, ← Matrix.mul_assoc A, hA, Matrix.one_mul]

/-- C124: the covariance is the same for any correct decomposition and any order of the samples, and rotates with the data, if all components
are kept or the singular values of the kept ones are larger than the others. -/
theorem C124_covariance (hn : 2 ≤ n) (σ : Equiv.Perm (Fin n)) (hA : A * Aᵀ = 1) (hsvd : IsThinSVD (centred X) U s V)
    (hsvd' : IsThinSVD (centred (movedSamples σ A c X)) U' s' V') (f f' : Fitted k d) (hf : PCA.fit k U s V = .ok f)
    (hf' : PCA.fit k U' s' V' = .ok f') (hs : k = min n d ∨ ∀ i j : Fin (min n d), i.val < k → k ≤ j.val → s j < s i) :
    ∃ C, covarianceOf f = some C ∧ covarianceOf f' = some (Aᵀ * C * A) := by
  have hA' : Aᵀ * A = 1 := mul_eq_one_comm.mp hA
  have hm := moved_svd σ A c X hA hsvd
  obtain rfl := singular_unique hm hsvd'
  obtain ⟨e, v, he, hv, hv0, hle, hC⟩ := covariance_eq hn hsvd hf
  obtain ⟨e', v', he', hv', hv0', hle', hC'⟩ := covariance_eq hn hsvd' hf'
  obtain ⟨-, h2, -, h4⟩ := C124_values X U U' s s V V' A c (by omega) σ hA hsvd hsvd' f f' hf hf'
  rw [he, he', Option.some.injEq] at h2
  rw [hv, hv', Option.some.injEq] at h4
  subst h2 h4
  obtain ⟨τ, h, hS⟩ := fit_spec (by omega) hsvd hf
  obtain ⟨τ', h', hS'⟩ := fit_spec (by omega) hsvd' hf'
  have hev : e' = fun i => s (Fin.castLE h i) ^ 2 / ((n : ℝ) - 1) := by
    have := hS.expl
    rw [he, explainedAll, if_neg (by omega)] at this
    exact Option.some.inj this
  -- one function of the eigenvalues gives the first part of both covariances
  obtain ⟨g, g0, hg⟩ : ∃ g : ℝ → ℝ, g 0 = 0 ∧ ∀ i, g (s i ^ 2) = if i.val < k then s i ^ 2 / ((n : ℝ) - 1) - v' else 0 := by
    rcases hs with rfl | hs
    · refine ⟨fun t => t / ((n : ℝ) - 1), by simp, fun i => ?_⟩
      have hv1 : v' = 0 := by
        have := hS.noi
        rw [hv] at this
        unfold noiseOf at this
        rw [if_neg (lt_irrefl _)] at this
        exact Option.some.inj this
      rw [if_pos i.2, hv1, sub_zero]
    · by_cases hk : k < min n d
      · refine ⟨fun t => if s ⟨k, hk⟩ ^ 2 < t then t / ((n : ℝ) - 1) - v' else 0, if_neg (not_lt.mpr (sq_nonneg _)), fun i => ?_⟩
        by_cases hi : i.val < k
        · dsimp only
          rw [if_pos hi, if_pos]
          exact pow_lt_pow_left₀ (hs i ⟨k, hk⟩ hi le_rfl) (hsvd.nonneg _) two_ne_zero
        · dsimp only
          rw [if_neg hi, if_neg]
          rw [not_lt]
          refine pow_le_pow_left₀ (hsvd.nonneg _) (hsvd.sorted ?_) 2
          show k ≤ i.val
          omega
      · refine ⟨fun t => t / ((n : ℝ) - 1), by simp, fun i => ?_⟩
        have hv1 : v' = 0 := by
          have := hS.noi
          rw [hv] at this
          unfold noiseOf at this
          rw [if_neg hk] at this
          exact Option.some.inj this
        have := i.2
        rw [if_pos (by omega), hv1, sub_zero]
  have hpart : ∀ (W : Matrix (Fin d) (Fin (min n d)) ℝ) (ρ : Fin (min n d) → ℝ) (F : Matrix (Fin k) (Fin d) ℝ) (_ : ∀ j, ρ j = 1 ∨ ρ j = -1)
      (_ : F = Matrix.of fun i j => ρ (Fin.castLE h i) * W j (Fin.castLE h i)),
      Fᵀ * diagonal (fun i => e' i - v') * F = W * diagonal (fun i => g (s i ^ 2)) * Wᵀ := by
    intro W ρ F hρ hF
    ext p q
    rw [mul_apply, mul_apply]
    simp only [mul_diagonal, transpose_apply]
    have h1 : ∀ i : Fin (min n d), W p i * g (s i ^ 2) * W q i =
        if i.val < k then W p i * (s i ^ 2 / ((n : ℝ) - 1) - v') * W q i else 0 := by
      intro i
      rw [hg]
      split
      · rfl
      · rw [mul_zero, zero_mul]
    simp only [h1]
    rw [← Finset.sum_filter]
    refine Finset.sum_bij (fun i _ => Fin.castLE h i) (fun i _ => ?_) (fun i _ j _ hij => Fin.castLE_injective h hij) (fun i hi => ?_)
      fun i _ => ?_
    · rw [Finset.mem_filter]
      exact ⟨Finset.mem_univ _, i.2⟩
    · rw [Finset.mem_filter] at hi
      exact ⟨⟨i.val, hi.2⟩, Finset.mem_univ _, rfl⟩
    · rw [hF, of_apply, of_apply, hev]
      have := sign_mul (hρ (Fin.castLE h i))
      linear_combination (W p (Fin.castLE h i) * (s (Fin.castLE h i) ^ 2 / ((n : ℝ) - 1) - v') * W q (Fin.castLE h i)) * this
  have hcal := calculus ((gram hm).symm.trans (gram hsvd')) hm.right hsvd'.right g g0
  refine ⟨_, hC, ?_⟩
  rw [hC', hpart V τ f.components hS.sign hS.comp, hpart V' τ' f'.components hS'.sign hS'.comp, ← hcal, transpose_mul, transpose_transpose]
  congr 1
  rw [Matrix.mul_add, Matrix.add_mul, Matrix.mul_smul, Matrix.mul_one, Matrix.smul_mul, hA']
  congr 1
  simp only [Matrix.mul_assoc]

end

/-- The hypotheses of C124 hold for the example with four samples, two features with exchanged coordinates, and one component; the singular
values are 4 and 2. -/
example : ∃ (A : Matrix (Fin 2) (Fin 2) ℝ) (U' : Matrix (Fin 4) (Fin 2) ℝ) (s' : Fin 2 → ℝ) (V' : Matrix (Fin 2) (Fin 2) ℝ), A * Aᵀ = 1 ∧ A ≠ 1 ∧
    IsThinSVD (n := 2) (k := min 4 2) (centred exampleData) exampleU ![4, 2] exampleV ∧
    IsThinSVD (n := 2) (k := min 4 2) (centred (movedSamples (Equiv.refl _) A ![1, 1] exampleData)) U' s' V' ∧
    (∃ f, PCA.fit (n := 4) (d := 2) 1 exampleU ![4, 2] exampleV = .ok f) ∧ (∃ f, PCA.fit (n := 4) (d := 2) 1 U' s' V' = .ok f) ∧
    (∀ i : Fin 2, i.val < 1 → (0 : ℝ) < ![4, 2] i ∧ ∀ j, j ≠ i → (![4, 2] : Fin 2 → ℝ) j ≠ ![4, 2] i) := by
  have hA : (!![0, 1; 1, 0] : Matrix (Fin 2) (Fin 2) ℝ) * (!![0, 1; 1, 0] : Matrix (Fin 2) (Fin 2) ℝ)ᵀ = 1 := by
    ext i j
    fin_cases i <;> fin_cases j <;> simp [mul_apply, Fin.sum_univ_two]
  have hm := moved_svd (Equiv.refl _) _ ![1, 1] exampleData hA example_svd
  refine ⟨!![0, 1; 1, 0], _, _, _, hA, fun h => ?_, example_svd, hm,
    (C84_defined (n := 4) (d := 2) exampleData exampleU ![4, 2] exampleV (by norm_num) example_svd).mpr (by decide),
    (C84_defined (n := 4) (d := 2) _ _ _ _ (by norm_num) hm).mpr (by decide), ?_⟩
  · have := congrFun (congrFun h 0) 0
    simp at this
  · intro i hi
    obtain rfl : i = 0 := by
      apply Fin.ext
      show i.val = 0
      omega
    refine ⟨by norm_num, fun j hj => ?_⟩
    fin_cases j
    · exact absurd rfl hj
    · norm_num

end OpenML
