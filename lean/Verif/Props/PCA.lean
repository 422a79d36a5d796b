import Verif.Lemmas.PCA

/-!
# PCA (C59, C84, C85)
-/

namespace OpenML

open Matrix Spec PCA

set_option linter.unusedSectionVars false

/-- C59: `transform` centres with the means of its argument, not with those of the training data: one row is always mapped to the
zero row, adding the same vector to all rows does not change the result, and the columns of the result have sum zero. -/
theorem C59_transform {k d m : Nat} (f : Fitted k d) (X : Matrix (Fin m) (Fin d) ℝ) :
    (m = 1 → transform f X = 0) ∧ (∀ c : Fin d → ℝ, transform f (Matrix.of fun i j => X i j + c j) = transform f X) ∧
    ∀ j, ∑ i, transform f X i j = 0 := by
  unfold transform
  simp only [center_eq]
  refine ⟨?_, fun c => by rw [centred_shift], centred_mul_sum X _⟩
  rintro rfl
  have : centred X = 0 := by
    ext i j
    obtain rfl : i = 0 := Subsingleton.elim _ _
    simp [centred, columnMean]
  rw [this, Matrix.zero_mul]

/-- Example for C59: two rows and one component along the first axis. -/
example : transform (⟨!![1, 0], ![2], some ![1], some ![1], some 0⟩ : Fitted 1 2) !![1, 7; 5, 9] = !![-2; 2] ∧
    transform (⟨!![1, 0], ![2], some ![1], some ![1], some 0⟩ : Fitted 1 2) !![5, 9] = !![0] := by
  constructor
  · ext i j
    fin_cases i <;> fin_cases j <;> norm_num [transform, LinAlg.center, mul_apply, Fin.sum_univ_two]
  · ext i j
    fin_cases i; fin_cases j
    norm_num [transform, LinAlg.center, mul_apply, Fin.sum_univ_two]

namespace PCA

variable {n d k : Nat} {X : Matrix (Fin n) (Fin d) ℝ} {U : Matrix (Fin n) (Fin (min n d)) ℝ} {s : Fin (min n d) → ℝ}
  {V : Matrix (Fin d) (Fin (min n d)) ℝ}

/-- What `fit` computes. -/
theorem fit_ok (hn : 0 < n) (hsvd : IsThinSVD (centred X) U s V) :
    ∃ σ : Fin (min n d) → ℝ, (∀ j, σ j = 1 ∨ σ j = -1) ∧
      (∀ j, ∃ p, 0 < U p j * σ j ∧ ∀ i, |U i j * σ j| ≤ U p j * σ j ∧ (|U i j * σ j| = U p j * σ j → p ≤ i)) ∧
      PCA.fit k U s V = if h : k ≤ min n d then
        .ok { components := Matrix.of fun i j => σ (Fin.castLE h i) * V j (Fin.castLE h i)
              singular := fun i => s (Fin.castLE h i)
              explained := (explainedAll n s).map fun e i => e (Fin.castLE h i)
              ratio := (ratioAll (explainedAll n s)).map fun e i => e (Fin.castLE h i)
              noise := noiseOf k (explainedAll n s) }
        else .ub := by
  obtain ⟨σ, h1, h2, h3⟩ := flip_spec U Vᵀ hn (col_ne_zero hsvd.left)
  refine ⟨σ, h1, h3, ?_⟩
  unfold PCA.fit
  rw [h2, Res.bind_ok]
  dsimp only
  split
  · congr 2
    ext i j
    rw [of_apply, diagonal_mul, transpose_apply]
    rfl
  · rfl

theorem sign_mul {a : ℝ} (h : a = 1 ∨ a = -1) : a * a = 1 := by rcases h with rfl | rfl <;> norm_num

/-- What is used of a fitted object. -/
structure FitSpec (X : Matrix (Fin n) (Fin d) ℝ) (U : Matrix (Fin n) (Fin (min n d)) ℝ) (s : Fin (min n d) → ℝ)
    (V : Matrix (Fin d) (Fin (min n d)) ℝ) (f : Fitted k d) (σ : Fin (min n d) → ℝ) (h : k ≤ min n d) : Prop where
  sign : ∀ j, σ j = 1 ∨ σ j = -1
  top : ∀ j, ∃ p, 0 < U p j * σ j ∧ ∀ i, |U i j * σ j| ≤ U p j * σ j ∧ (|U i j * σ j| = U p j * σ j → p ≤ i)
  comp : f.components = Matrix.of fun i j => σ (Fin.castLE h i) * V j (Fin.castLE h i)
  sing : f.singular = fun i => s (Fin.castLE h i)
  expl : f.explained = (explainedAll n s).map fun e i => e (Fin.castLE h i)
  rat : f.ratio = (ratioAll (explainedAll n s)).map fun e i => e (Fin.castLE h i)
  noi : f.noise = noiseOf k (explainedAll n s)

theorem fit_spec (hn : 0 < n) (hsvd : IsThinSVD (centred X) U s V) {f : Fitted k d} (hf : PCA.fit k U s V = .ok f) :
    ∃ σ h, FitSpec X U s V f σ h := by
  obtain ⟨σ, h1, h2, h3⟩ := fit_ok (k := k) hn hsvd
  rw [h3] at hf
  split at hf
  · rename_i h
    cases hf
    exact ⟨σ, h, h1, h2, rfl, rfl, rfl, rfl, rfl⟩
  · cases hf

theorem comp_orth (hsvd : IsThinSVD (centred X) U s V) {f : Fitted k d} {σ : Fin (min n d) → ℝ} {h : k ≤ min n d}
    (hS : FitSpec X U s V f σ h) : f.components * f.componentsᵀ = 1 := by
  ext i j
  rw [hS.comp, mul_apply]
  simp only [of_apply, transpose_apply]
  have h1 := congrFun (congrFun hsvd.right (Fin.castLE h i)) (Fin.castLE h j)
  rw [mul_apply] at h1
  simp only [transpose_apply] at h1
  have : ∀ q, σ (Fin.castLE h i) * V q (Fin.castLE h i) * (σ (Fin.castLE h j) * V q (Fin.castLE h j)) =
      σ (Fin.castLE h i) * σ (Fin.castLE h j) * (V q (Fin.castLE h i) * V q (Fin.castLE h j)) := fun q => by ring
  simp only [this]
  rw [← Finset.mul_sum, h1]
  by_cases hij : i = j
  · subst hij
    rw [one_apply_eq, one_apply_eq, mul_one, sign_mul (hS.sign _)]
  · rw [one_apply_ne hij, one_apply_ne (fun he => hij (Fin.castLE_injective h he)), mul_zero]

theorem mul_comp {m : Nat} {f : Fitted k d} {σ : Fin (min n d) → ℝ} {h : k ≤ min n d} (hS : FitSpec X U s V f σ h)
    (A : Matrix (Fin m) (Fin d) ℝ) (a : Fin m) (i : Fin k) :
    (A * f.componentsᵀ) a i = σ (Fin.castLE h i) * (A * V) a (Fin.castLE h i) := by
  rw [hS.comp, mul_apply, mul_apply, Finset.mul_sum]
  refine Finset.sum_congr rfl fun q _ => ?_
  rw [transpose_apply, of_apply]
  ring

/-- The components are eigenvectors of the sample covariance. -/
theorem cov_comp (hsvd : IsThinSVD (centred X) U s V) {f : Fitted k d} {σ : Fin (min n d) → ℝ} {h : k ≤ min n d}
    (hS : FitSpec X U s V f σ h) :
    sampleCov X * f.componentsᵀ = f.componentsᵀ * diagonal fun i => s (Fin.castLE h i) ^ 2 / ((n : ℝ) - 1) := by
  ext a i
  rw [mul_comp hS, mul_diagonal, transpose_apply, hS.comp, of_apply, sampleCov_svd hsvd, Matrix.mul_assoc, hsvd.right, Matrix.mul_one,
    mul_diagonal]
  ring

theorem transform_eq (hsvd : IsThinSVD (centred X) U s V) {f : Fitted k d} {σ : Fin (min n d) → ℝ} {h : k ≤ min n d}
    (hS : FitSpec X U s V f σ h) (a : Fin n) (i : Fin k) :
    transform f X a i = s (Fin.castLE h i) * (U a (Fin.castLE h i) * σ (Fin.castLE h i)) := by
  unfold transform
  rw [center_eq, mul_comp hS, hsvd.product, Matrix.mul_assoc, hsvd.right, Matrix.mul_one, mul_diagonal]
  ring

theorem total_variance (hsvd : IsThinSVD (centred X) U s V) :
    ∑ j, sampleVar (fun i => X i j) = ∑ i, s i ^ 2 / ((n : ℝ) - 1) := by
  have h1 : ∀ j, sampleVar (fun i => X i j) = sampleCov X j j := by
    intro j
    simp only [sampleVar, sampleCov, of_apply, columnMean, sq]
  simp only [h1]
  have : ∑ j, sampleCov X j j = (sampleCov X).trace := rfl
  rw [this, sampleCov_svd hsvd, Matrix.trace_mul_comm, ← Matrix.mul_assoc, hsvd.right, Matrix.one_mul, Matrix.trace_diagonal]

/-- Bessel's inequality for the columns of a matrix. -/
theorem bessel {d K : Nat} {V : Matrix (Fin d) (Fin K) ℝ} (h : Vᵀ * V = 1) (v : Fin d → ℝ) :
    ∑ q, ((Vᵀ *ᵥ v) q) ^ 2 ≤ v ⬝ᵥ v := by
  have h1 : 0 ≤ (v - V *ᵥ (Vᵀ *ᵥ v)) ⬝ᵥ (v - V *ᵥ (Vᵀ *ᵥ v)) := Finset.sum_nonneg fun i _ => mul_self_nonneg _
  have h2 : v ⬝ᵥ (V *ᵥ (Vᵀ *ᵥ v)) = (Vᵀ *ᵥ v) ⬝ᵥ (Vᵀ *ᵥ v) := by
    rw [dotProduct_mulVec, ← mulVec_transpose]
  have h3 : (V *ᵥ (Vᵀ *ᵥ v)) ⬝ᵥ (V *ᵥ (Vᵀ *ᵥ v)) = (Vᵀ *ᵥ v) ⬝ᵥ (Vᵀ *ᵥ v) := by
    rw [dotProduct_mulVec, ← mulVec_transpose, mulVec_mulVec, h, one_mulVec]
  rw [sub_dotProduct, dotProduct_sub, dotProduct_sub, dotProduct_comm (V *ᵥ (Vᵀ *ᵥ v)) v, h2, h3] at h1
  have h4 : ∑ q, ((Vᵀ *ᵥ v) q) ^ 2 = (Vᵀ *ᵥ v) ⬝ᵥ (Vᵀ *ᵥ v) := by simp only [dotProduct, sq]
  linarith

end PCA

section
variable {n d k : Nat} (X : Matrix (Fin n) (Fin d) ℝ) (U : Matrix (Fin n) (Fin (min n d)) ℝ) (s : Fin (min n d) → ℝ)
  (V : Matrix (Fin d) (Fin (min n d)) ℝ)

/-- C84: fitting succeeds exactly if the number of components is at most the smaller dimension of the data; otherwise an assertion of
Eigen is violated. -/
theorem C84_defined (hn : 0 < n) (hsvd : IsThinSVD (centred X) U s V) :
    (∃ f, PCA.fit k U s V = .ok f) ↔ k ≤ min n d := by
  obtain ⟨σ, -, -, h⟩ := fit_ok (k := k) hn hsvd
  rw [h]
  split
  · exact ⟨fun _ => ‹_›, fun _ => ⟨_, rfl⟩⟩
  · rename_i hk
    refine ⟨fun ⟨f, hf⟩ => ?_, fun h => absurd h hk⟩
    cases hf

/-- C84: the components are orthonormal, the transformed training data are uncorrelated, the explained variances are their sample
variances and the singular values their euclidean norms, in decreasing order; the first entry of largest absolute value of every
column of the transformed training data is positive unless the column is zero. -/
theorem C84_components (hn : 2 ≤ n) (hsvd : IsThinSVD (centred X) U s V) (f : Fitted k d) (hf : PCA.fit k U s V = .ok f) :
    f.components * f.componentsᵀ = 1 ∧
    (∃ e, f.explained = some e ∧ sampleCov (transform f X) = diagonal e ∧ Antitone e) ∧
    (∀ i, f.singular i = Real.sqrt (∑ a, transform f X a i ^ 2)) ∧ Antitone f.singular ∧
    ∀ i, (∀ a, transform f X a i = 0) ∨ ∃ p, 0 < transform f X p i ∧
      ∀ a, |transform f X a i| ≤ transform f X p i ∧ (|transform f X a i| = transform f X p i → p ≤ a) := by
  obtain ⟨σ, h, hS⟩ := fit_spec (by omega) hsvd hf
  have hn1 : (0 : ℝ) < (n : ℝ) - 1 := by
    have : (2 : ℝ) ≤ n := by exact_mod_cast hn
    linarith
  have hmono : Antitone fun i : Fin k => s (Fin.castLE h i) := fun i j hij => hsvd.sorted (by exact hij)
  refine ⟨comp_orth hsvd hS, ⟨fun i => s (Fin.castLE h i) ^ 2 / ((n : ℝ) - 1), ?_, ?_, ?_⟩, ?_, ?_, ?_⟩
  · rw [hS.expl, explainedAll, if_neg (by omega)]
    rfl
  · unfold transform
    rw [center_eq, sampleCov_centred_mul, Matrix.mul_assoc, cov_comp hsvd hS, ← Matrix.mul_assoc, transpose_transpose,
      comp_orth hsvd hS, Matrix.one_mul]
  · intro i j hij
    have := hmono hij
    have h0 := hsvd.nonneg (Fin.castLE h j)
    dsimp only at this ⊢
    exact div_le_div_of_nonneg_right (pow_le_pow_left₀ h0 this 2) hn1.le
  · intro i
    have h1 : ∑ a, transform f X a i ^ 2 = s (Fin.castLE h i) ^ 2 := by
      simp only [transform_eq hsvd hS, mul_pow]
      rw [← Finset.mul_sum, ← Finset.sum_mul]
      have h2 := congrFun (congrFun hsvd.left (Fin.castLE h i)) (Fin.castLE h i)
      rw [mul_apply, one_apply_eq] at h2
      simp only [transpose_apply, ← sq] at h2
      rw [h2, sq (σ _), sign_mul (hS.sign _), mul_one, mul_one]
    rw [h1, Real.sqrt_sq (hsvd.nonneg _), hS.sing]
  · rw [hS.sing]
    exact hmono
  · intro i
    rcases eq_or_lt_of_le (hsvd.nonneg (Fin.castLE h i)) with h0 | h0
    · left
      intro a
      rw [transform_eq hsvd hS, ← h0, zero_mul]
    · right
      obtain ⟨p, hp, hall⟩ := hS.top (Fin.castLE h i)
      refine ⟨p, ?_, fun a => ?_⟩
      · rw [transform_eq hsvd hS]
        exact mul_pos h0 hp
      · rw [transform_eq hsvd hS, transform_eq hsvd hS, abs_mul, abs_of_pos h0]
        exact ⟨mul_le_mul_of_nonneg_left (hall a).1 h0.le, fun he => (hall a).2 (mul_left_cancel₀ h0.ne' he)⟩

/-- C84: each component maximises the variance of the projection of the data among the unit vectors orthogonal to the components
before it. -/
theorem C84_max_variance (hn : 2 ≤ n) (hsvd : IsThinSVD (centred X) U s V) (f : Fitted k d) (hf : PCA.fit k U s V = .ok f)
    (i : Fin k) :
    ∃ e, f.explained = some e ∧ sampleVar (X *ᵥ f.components i) = e i ∧
      ∀ v : Fin d → ℝ, v ⬝ᵥ v = 1 → (∀ j < i, f.components j ⬝ᵥ v = 0) → sampleVar (X *ᵥ v) ≤ e i := by
  obtain ⟨σ, h, hS⟩ := fit_spec (by omega) hsvd hf
  have hn1 : (0 : ℝ) < (n : ℝ) - 1 := by
    have : (2 : ℝ) ≤ n := by exact_mod_cast hn
    linarith
  refine ⟨fun i => s (Fin.castLE h i) ^ 2 / ((n : ℝ) - 1), ?_, ?_, ?_⟩
  · rw [hS.expl, explainedAll, if_neg (by omega)]
    rfl
  · rw [sampleVar_eq]
    have h1 : sampleCov X *ᵥ f.components i = (s (Fin.castLE h i) ^ 2 / ((n : ℝ) - 1)) • f.components i := by
      funext a
      have := congrFun (congrFun (cov_comp hsvd hS) a) i
      rw [mul_diagonal, mul_apply] at this
      simp only [transpose_apply] at this
      simp only [mulVec, dotProduct, Pi.smul_apply, smul_eq_mul]
      rw [this, mul_comm]
    rw [h1, dotProduct_smul]
    have h2 := congrFun (congrFun (comp_orth hsvd hS) i) i
    rw [mul_apply, one_apply_eq] at h2
    have h3 : f.components i ⬝ᵥ f.components i = 1 := h2
    rw [h3, smul_eq_mul, mul_one]
  · intro v hv hort
    rw [sampleVar_eq, sampleCov_svd hsvd]
    have h1 : v ⬝ᵥ ((V * diagonal (fun i => s i ^ 2 / ((n : ℝ) - 1)) * Vᵀ) *ᵥ v) =
        ∑ q, s q ^ 2 / ((n : ℝ) - 1) * ((Vᵀ *ᵥ v) q) ^ 2 := by
      rw [← mulVec_mulVec, ← mulVec_mulVec, dotProduct_mulVec, ← mulVec_transpose]
      simp only [dotProduct, mulVec_diagonal]
      exact Finset.sum_congr rfl fun q _ => by ring
    rw [h1]
    have h2 : ∀ q, s q ^ 2 / ((n : ℝ) - 1) * ((Vᵀ *ᵥ v) q) ^ 2 ≤
        s (Fin.castLE h i) ^ 2 / ((n : ℝ) - 1) * ((Vᵀ *ᵥ v) q) ^ 2 := by
      intro q
      by_cases hq : q < Fin.castLE h i
      · have hqi : q.val < i.val := hq
        have h0 : (Vᵀ *ᵥ v) q = 0 := by
          have := hort ⟨q.val, by have := i.2; omega⟩ hqi
          have he : Fin.castLE h ⟨q.val, by have := i.2; omega⟩ = q := rfl
          rw [hS.comp] at this
          simp only [dotProduct, of_apply, he, mul_assoc] at this
          rw [← Finset.mul_sum] at this
          rcases mul_eq_zero.mp this with h0 | h0
          · rcases hS.sign q with h1 | h1 <;> rw [h1] at h0 <;> norm_num at h0
          · exact h0
        rw [h0]
        simp
      · refine mul_le_mul_of_nonneg_right ?_ (sq_nonneg _)
        exact div_le_div_of_nonneg_right (pow_le_pow_left₀ (hsvd.nonneg q) (hsvd.sorted (not_lt.mp hq)) 2) hn1.le
    refine (Finset.sum_le_sum fun q _ => h2 q).trans ?_
    rw [← Finset.mul_sum]
    have := bessel hsvd.right v
    rw [hv] at this
    exact mul_le_of_le_one_right (div_nonneg (sq_nonneg _) hn1.le) this

/-- C84: the ratios are the explained variances divided by the sum of the variances of all features, and they are undefined exactly if
that is zero; the noise variance is the mean of the variance not explained over the remaining directions, or zero if there are
none. -/
theorem C84_ratio (hn : 2 ≤ n) (hsvd : IsThinSVD (centred X) U s V) (f : Fitted k d) (hf : PCA.fit k U s V = .ok f) :
    (f.ratio = none ↔ ∑ j, sampleVar (fun i => X i j) = 0) ∧
    (∀ r, f.ratio = some r → ∀ i, r i = sampleVar (fun a => transform f X a i) / ∑ j, sampleVar (fun i => X i j)) ∧
    ∃ v, f.noise = some v ∧ 0 ≤ v ∧
      v * ((min n d - k : Nat) : ℝ) = if k = min n d then 0 else
        (∑ j, sampleVar (fun i => X i j)) - ∑ i, sampleVar (fun a => transform f X a i) := by
  obtain ⟨σ, h, hS⟩ := fit_spec (by omega) hsvd hf
  have hn1 : (0 : ℝ) < (n : ℝ) - 1 := by
    have : (2 : ℝ) ≤ n := by exact_mod_cast hn
    linarith
  obtain ⟨-, ⟨e, he, hcov, -⟩, -⟩ := C84_components X U s V hn hsvd f hf
  have hall : explainedAll n s = some fun i => s i ^ 2 / ((n : ℝ) - 1) := by rw [explainedAll, if_neg (by omega)]
  have hei : ∀ i, e i = s (Fin.castLE h i) ^ 2 / ((n : ℝ) - 1) := by
    intro i
    rw [hS.expl, hall] at he
    cases he
    rfl
  have hvar : ∀ i, sampleVar (fun a => transform f X a i) = s (Fin.castLE h i) ^ 2 / ((n : ℝ) - 1) := by
    intro i
    have h1 := congrFun (congrFun hcov i) i
    rw [diagonal_apply_eq, hei] at h1
    rw [← h1]
    simp only [sampleVar, sampleCov, of_apply, columnMean, sq]
  simp only [hvar, total_variance hsvd]
  refine ⟨?_, ?_, ?_⟩
  · rw [hS.rat, hall]
    simp only [ratioAll]
    split
    · simp_all
    · simp_all
  · intro r hr i
    rw [hS.rat, hall] at hr
    simp only [ratioAll] at hr
    split at hr
    · cases hr
    · cases hr
      rfl
  · rw [hS.noi, hall]
    unfold noiseOf
    split
    · rename_i hk
      dsimp only
      have hpos : (0 : ℝ) < ((min n d - k : Nat) : ℝ) := by exact_mod_cast (by omega : 0 < min n d - k)
      refine ⟨_, rfl, div_nonneg (Finset.sum_nonneg fun i _ => ?_) hpos.le, ?_⟩
      · split
        · exact div_nonneg (sq_nonneg _) hn1.le
        · exact le_rfl
      · rw [if_neg hk.ne, div_mul_cancel₀ _ hpos.ne', eq_sub_iff_add_eq]
        have hsplit : ∀ g : Fin (min n d) → ℝ,
            (∑ i : Fin (min n d), if min n d - (min n d - k) ≤ i.val then g i else 0) + ∑ i : Fin k, g (Fin.castLE h i) =
              ∑ i, g i := by
          intro g
          have h1 : ∑ i : Fin k, g (Fin.castLE h i) = ∑ i : Fin (min n d), if i.val < k then g i else 0 := by
            rw [← Finset.sum_filter]
            refine Finset.sum_bij (fun i _ => Fin.castLE h i) (fun i _ => by simp) (fun i _ j _ hij => Fin.castLE_injective h hij)
              (fun j hj => ⟨⟨j.val, (Finset.mem_filter.mp hj).2⟩, by simp, rfl⟩) (fun i _ => rfl)
          rw [h1, ← Finset.sum_add_distrib]
          refine Finset.sum_congr rfl fun i _ => ?_
          by_cases hi : i.val < k
          · rw [if_neg (by omega), if_pos hi, zero_add]
          · rw [if_pos (by omega), if_neg hi, add_zero]
        exact hsplit fun i => s i ^ 2 / ((n : ℝ) - 1)
    · refine ⟨0, rfl, le_rfl, ?_⟩
      rw [if_pos (by omega), zero_mul]

end

/-- Example for C84: four samples with two features of variances 16/3 and 4/3, already centred. -/
def exampleData : Matrix (Fin 4) (Fin 2) ℝ := !![2, 1; 2, -1; -2, 1; -2, -1]

/-- Left factor of the decomposition of the example data. -/
noncomputable def exampleU : Matrix (Fin 4) (Fin 2) ℝ := !![1 / 2, 1 / 2; 1 / 2, -1 / 2; -1 / 2, 1 / 2; -1 / 2, -1 / 2]

/-- Right factor of the decomposition of the example data. -/
def exampleV : Matrix (Fin 2) (Fin 2) ℝ := 1

theorem example_centred : centred exampleData = exampleData := by
  ext i j
  fin_cases i <;> fin_cases j <;> norm_num [centred, columnMean, exampleData, Fin.sum_univ_succ]

theorem example_svd : IsThinSVD (centred exampleData) exampleU ![4, 2] exampleV := by
  rw [example_centred, exampleV]
  refine ⟨?_, ?_, ?_, ?_, ?_⟩
  · ext i j
    fin_cases i <;> fin_cases j <;> norm_num [mul_apply, exampleU, Fin.sum_univ_succ]
  · simp
  · intro i
    fin_cases i <;> norm_num
  · intro i j hij
    fin_cases i <;> fin_cases j <;> simp at hij ⊢ <;> norm_num
  · rw [transpose_one, Matrix.mul_one]
    ext i j
    rw [mul_diagonal]
    fin_cases i <;> fin_cases j <;> norm_num [exampleU, exampleData]

/-- The hypotheses of C84 hold for the example with one component. -/
example : IsThinSVD (n := 2) (k := min 4 2) (centred exampleData) exampleU ![4, 2] exampleV ∧
    ∃ f, PCA.fit (n := 4) (d := 2) 1 exampleU ![4, 2] exampleV = .ok f :=
  ⟨example_svd, (C84_defined (n := 4) (d := 2) exampleData exampleU ![4, 2] exampleV (by norm_num) example_svd).mpr (by decide)⟩

end OpenML
