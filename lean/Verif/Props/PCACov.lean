import Verif.Props.PCA
import Verif.Props.LinAlg
import Mathlib.Analysis.Matrix.PosDef

/-!
# PCA: covariance, precision and score (C85, C86)
-/

namespace OpenML

open Matrix Spec PCA

namespace PCA

section
variable {n d k : Nat} {X : Matrix (Fin n) (Fin d) ℝ} {U : Matrix (Fin n) (Fin (min n d)) ℝ} {s : Fin (min n d) → ℝ}
  {V : Matrix (Fin d) (Fin (min n d)) ℝ}

/-- The noise variance is at most every explained variance. -/
theorem noise_le (hn : 2 ≤ n) (hsvd : IsThinSVD (centred X) U s V) {v : ℝ} (h : k ≤ min n d)
    (hv : noiseOf k (explainedAll n s) = some v) (i : Fin k) : v ≤ s (Fin.castLE h i) ^ 2 / ((n : ℝ) - 1) := by
  have hn1 : (0 : ℝ) < (n : ℝ) - 1 := by
    have : (2 : ℝ) ≤ n := by exact_mod_cast hn
    linarith
  rw [explainedAll, if_neg (by omega)] at hv
  unfold noiseOf at hv
  split at hv
  · rename_i hk
    cases hv
    have hpos : (0 : ℝ) < ((min n d - k : Nat) : ℝ) := by exact_mod_cast (by omega : 0 < min n d - k)
    rw [div_le_iff₀ hpos]
    have h1 : ∀ q : Fin (min n d), (if min n d - (min n d - k) ≤ q.val then s q ^ 2 / ((n : ℝ) - 1) else 0) ≤
        if min n d - (min n d - k) ≤ q.val then s (Fin.castLE h i) ^ 2 / ((n : ℝ) - 1) else 0 := by
      intro q
      split
      · rename_i hq
        refine div_le_div_of_nonneg_right (pow_le_pow_left₀ (hsvd.nonneg q) (hsvd.sorted ?_) 2) hn1.le
        show i.val ≤ q.val
        have := i.2
        omega
      · exact le_rfl
    refine (Finset.sum_le_sum fun q _ => h1 q).trans (le_of_eq ?_)
    rw [← Finset.sum_filter, Finset.sum_const, nsmul_eq_mul, mul_comm]
    congr 2
    have : (Finset.univ.filter fun q : Fin (min n d) => min n d - (min n d - k) ≤ q.val) =
        Finset.univ.filter fun q : Fin (min n d) => ¬ q.val < k := by
      ext q
      simp only [Finset.mem_filter, Finset.mem_univ, true_and]
      omega
    rw [this, Finset.filter_not, Finset.card_sdiff_of_subset (Finset.filter_subset _ _), Finset.card_univ, Fintype.card_fin,
      Fin.card_filter_val_lt, min_eq_right h]
  · cases hv
    exact div_nonneg (sq_nonneg _) hn1.le

/-- The covariance as a sum. -/
theorem covariance_eq (hn : 2 ≤ n) (hsvd : IsThinSVD (centred X) U s V) {f : Fitted k d} (hf : PCA.fit k U s V = .ok f) :
    ∃ e v, f.explained = some e ∧ f.noise = some v ∧ 0 ≤ v ∧ (∀ i, v ≤ e i) ∧
      covarianceOf f = some (f.componentsᵀ * diagonal (fun i => e i - v) * f.components + v • 1) := by
  obtain ⟨-, -, v, hv, hv0, -⟩ := C84_ratio X U s V hn hsvd f hf
  obtain ⟨σ, h, hS⟩ := fit_spec (by omega) hsvd hf
  have he : f.explained = some fun i => s (Fin.castLE h i) ^ 2 / ((n : ℝ) - 1) := by
    rw [hS.expl, explainedAll, if_neg (by omega)]
    rfl
  have hle := noise_le hn hsvd h (by rw [← hS.noi]; exact hv)
  refine ⟨_, v, he, hv, hv0, hle, ?_⟩
  unfold covarianceOf
  rw [he, hv]
  dsimp only
  congr 4
  ext i j
  rw [of_apply]
  by_cases hij : i = j
  · subst hij
    rw [diagonal_apply_eq, diagonal_apply_eq, max_eq_left (sub_nonneg.mpr (hle i))]
  · rw [diagonal_apply_ne _ hij, diagonal_apply_ne _ hij, max_eq_right (by linarith)]

end

theorem dot_self_pos {d : Nat} {u : Fin d → ℝ} (hu : u ≠ 0) : 0 < u ⬝ᵥ u :=
  lt_of_le_of_ne (Finset.sum_nonneg fun i _ => mul_self_nonneg (u i)) fun h => hu (dotProduct_self_eq_zero.mp h.symm)

/-- Singular values of a matrix with a quadratic form above a bound are above the bound. -/
theorem singular_gt {n : Nat} {x U : Matrix (Fin n) (Fin n) ℝ} {s : Nat → ℝ} {V : Matrix (Fin n) (Fin n) ℝ} (h : IsFullSVD x U s V)
    {tol : ℝ} (hq : ∀ u, u ≠ 0 → tol * (u ⬝ᵥ u) < u ⬝ᵥ (x *ᵥ u)) (i : Nat) (hi : i < n) : tol < s i := by
  have hv : ∀ (W : Matrix (Fin n) (Fin n) ℝ), Wᵀ * W = 1 → Wᵀ ⟨i, hi⟩ ⬝ᵥ Wᵀ ⟨i, hi⟩ = 1 := by
    intro W hW
    have := congrFun (congrFun hW ⟨i, hi⟩) ⟨i, hi⟩
    rw [mul_apply, one_apply_eq] at this
    exact this
  have h1 := hv V h.right
  have h2 := hv U h.left
  have hx : x *ᵥ (Vᵀ ⟨i, hi⟩) = s i • Uᵀ ⟨i, hi⟩ := by
    have h3 : x * V = U * (Matrix.of fun (i : Fin n) (j : Fin n) => if i.val = j.val then s i.val else 0) := by
      conv_lhs => rw [h.product]
      rw [Matrix.mul_assoc, h.right, Matrix.mul_one]
    funext a
    have h4 := congrFun (congrFun h3 a) ⟨i, hi⟩
    rw [mul_apply, mul_apply (M := U), Finset.sum_eq_single (f := fun j => U a j * _) ⟨i, hi⟩] at h4
    · rw [of_apply, if_pos rfl] at h4
      simp only [mulVec, dotProduct, transpose_apply, Pi.smul_apply, smul_eq_mul]
      rw [h4, mul_comm]
    · intro b _ hb
      rw [of_apply, if_neg (fun he => hb (Fin.ext he)), mul_zero]
    · simp
  have h5 := hq (Vᵀ ⟨i, hi⟩) (by
    intro h0
    rw [h0] at h1
    simp at h1)
  rw [h1, hx, dotProduct_smul, smul_eq_mul, mul_one] at h5
  have h6 : Vᵀ ⟨i, hi⟩ ⬝ᵥ Uᵀ ⟨i, hi⟩ ≤ 1 := by
    have h7 : 0 ≤ (Vᵀ ⟨i, hi⟩ - Uᵀ ⟨i, hi⟩) ⬝ᵥ (Vᵀ ⟨i, hi⟩ - Uᵀ ⟨i, hi⟩) := Finset.sum_nonneg fun _ _ => mul_self_nonneg _
    rw [sub_dotProduct, dotProduct_sub, dotProduct_sub, h1, h2, dotProduct_comm (Uᵀ _)] at h7
    linarith
  have h8 := mul_le_of_le_one_right (h.nonneg i hi hi) h6
  linarith

/-- The score for a symmetric covariance with a quadratic form above the cut-off. -/
theorem score_eq {k d m : Nat} (svd : Matrix (Fin d) (Fin d) ℝ → Matrix (Fin d) (Fin d) ℝ × (Nat → ℝ) × Matrix (Fin d) (Fin d) ℝ)
    (lu : Matrix (Fin d) (Fin d) ℝ → Equiv.Perm (Fin d) × (Fin d → ℝ))
    (C : Matrix (Fin d) (Fin d) ℝ)
    (hsv : IsFullSVD C (svd C).1 (svd C).2.1 (svd C).2.2)
    (hlu : ∃ L U, IsPartialPivLU C⁻¹ (lu C⁻¹).1 L U ∧ ∀ i, (lu C⁻¹).2 i = U i i) (hC : Cᵀ = C) (hq : ∀ u, u ≠ 0 → 1 / 1000000 * (u ⬝ᵥ u) < u ⬝ᵥ (C *ᵥ u))
    (st st' : State k d) (hst : st.covariance = some (some C)) (hp : st.getPrecision svd = .ok st') (Y : Matrix (Fin m) (Fin d) ℝ) :
    st'.fitted = st.fitted ∧ st'.covariance = st.covariance ∧
    ∀ st'' : State k d, st''.precision = st'.precision →
      st''.score lu Y = .ok (some (((∑ i, logNormal (columnMean Y) C (Y i)) / (m : ℝ) : ℝ) : WithBot ℝ)) := by
  unfold State.getPrecision at hp
  rw [hst] at hp
  cases hp
  refine ⟨rfl, hst ▸ rfl, fun st'' h => ?_⟩
  dsimp only at h
  have hinv := ((C32_square C _ _ _ hsv (1 / 1000000) (by norm_num)).1 (singular_gt hsv hq)).2.2
  rw [← hinv] at h
  have hpd : C.PosDef := by
    refine Matrix.PosDef.of_dotProduct_mulVec_pos (by rw [IsHermitian, conjTranspose_eq_transpose_of_trivial, hC]) fun u hu => ?_
    rw [star_trivial]
    refine lt_of_le_of_lt (mul_nonneg (by norm_num) (Finset.sum_nonneg fun i _ => mul_self_nonneg (u i))) (hq u hu)
  have hdet := hpd.det_pos
  obtain ⟨L, W, hLU, hW⟩ := hlu
  have hd : 0 < (C⁻¹).det := by
    rw [det_nonsing_inv, Ring.inverse_eq_inv']
    exact inv_pos.mpr hdet
  have hld := (C74_logdet _ _ L W hLU).1 hd
  have hld : LinAlg.logdet (lu C⁻¹).1 (lu C⁻¹).2 = ((Real.log (C⁻¹).det : ℝ) : WithBot ℝ) := by
    rw [← hld]
    congr 1
    exact funext hW
  unfold State.score
  rw [h]
  dsimp only
  rw [hld]
  dsimp only
  congr 4
  refine Finset.sum_congr rfl fun i _ => ?_
  unfold scoreRow logNormal
  have h1 : LinAlg.center Y i = Y i - columnMean Y := rfl
  have h2 : ∀ x : Fin d → ℝ, ∑ j, x j * (x ᵥ* C⁻¹) j = x ⬝ᵥ (C⁻¹ *ᵥ x) := by
    intro x
    rw [dotProduct_mulVec, dotProduct_comm]
    rfl
  rw [h1, h2, det_nonsing_inv, Ring.inverse_eq_inv', Real.log_inv]
  ring

end PCA

section
variable {n d k : Nat} (X : Matrix (Fin n) (Fin d) ℝ) (U : Matrix (Fin n) (Fin (min n d)) ℝ) (s : Fin (min n d) → ℝ)
  (V : Matrix (Fin d) (Fin (min n d)) ℝ)

/-- C85: the covariance is symmetric, has the components as eigenvectors with the explained variances as eigenvalues, and multiplies
every vector orthogonal to the components by the noise variance; its quadratic form is at least the noise variance times the square of
the length. With at least as many samples as features its trace is the sum of the variances of the features, and with as many components
as features it is the sample covariance of the training data. -/
theorem C85_covariance (hn : 2 ≤ n) (hsvd : IsThinSVD (centred X) U s V) (f : Fitted k d) (hf : PCA.fit k U s V = .ok f) :
    ∃ e v C, f.explained = some e ∧ f.noise = some v ∧ covarianceOf f = some C ∧ Cᵀ = C ∧
      (∀ i, C *ᵥ f.components i = e i • f.components i) ∧
      (∀ u, (∀ i, f.components i ⬝ᵥ u = 0) → C *ᵥ u = v • u) ∧
      (∀ u, v * (u ⬝ᵥ u) ≤ u ⬝ᵥ (C *ᵥ u)) ∧
      (d ≤ n → C.trace = ∑ j, sampleVar fun i => X i j) ∧
      (k = d → C = sampleCov X) := by
  obtain ⟨e, v, he, hv, hv0, hle, hC⟩ := covariance_eq hn hsvd hf
  obtain ⟨σ, h, hS⟩ := fit_spec (by omega) hsvd hf
  have horth := comp_orth hsvd hS
  have hei : e = fun i => s (Fin.castLE h i) ^ 2 / ((n : ℝ) - 1) := by
    rw [hS.expl, explainedAll, if_neg (by omega)] at he
    cases he
    rfl
  have hmv : ∀ u, (f.componentsᵀ * diagonal (fun i => e i - v) * f.components + v • (1 : Matrix (Fin d) (Fin d) ℝ)) *ᵥ u =
      f.componentsᵀ *ᵥ (diagonal (fun i => e i - v) *ᵥ (f.components *ᵥ u)) + v • u := by
    intro u
    rw [add_mulVec, smul_mulVec, one_mulVec, ← mulVec_mulVec, ← mulVec_mulVec]
  refine ⟨e, v, _, he, hv, hC, ?_, ?_, ?_, ?_, ?_, ?_⟩
  · simp only [transpose_add, transpose_mul, transpose_transpose, diagonal_transpose, transpose_smul, transpose_one, Matrix.mul_assoc]
  · intro i
    rw [hmv]
    have h1 : f.components *ᵥ f.components i = Pi.single i 1 := by
      funext j
      have := congrFun (congrFun horth j) i
      rw [mul_apply] at this
      simp only [mulVec, dotProduct, transpose_apply] at this ⊢
      rw [this, one_apply, Pi.single_apply]
    rw [h1, diagonal_mulVec_single, mulVec_single]
    funext a
    simp only [Pi.add_apply, Pi.smul_apply, MulOpposite.smul_eq_mul_unop, MulOpposite.unop_op, smul_eq_mul, mul_one, col_apply, transpose_apply]
    ring
  · intro u hu
    rw [hmv]
    have : f.components *ᵥ u = 0 := funext hu
    rw [this, mulVec_zero, mulVec_zero, zero_add]
  · intro u
    rw [hmv, dotProduct_add, dotProduct_smul, smul_eq_mul, dotProduct_mulVec, vecMul_transpose]
    have : 0 ≤ (f.components *ᵥ u) ⬝ᵥ (diagonal (fun i => e i - v) *ᵥ (f.components *ᵥ u)) := by
      refine Finset.sum_nonneg fun i _ => ?_
      rw [mulVec_diagonal, mul_left_comm]
      exact mul_nonneg (sub_nonneg.mpr (hle i)) (mul_self_nonneg _)
    linarith
  · intro hdn
    obtain ⟨-, -, v', hv', -, heq⟩ := C84_ratio X U s V hn hsvd f hf
    obtain ⟨-, ⟨e', he', hcov, -⟩, -⟩ := C84_components X U s V hn hsvd f hf
    obtain rfl : v = v' := by rw [hv] at hv'; exact Option.some.inj hv'
    obtain rfl : e = e' := by rw [he] at he'; exact Option.some.inj he'
    have hvar : ∀ i, sampleVar (fun a => transform f X a i) = e i := by
      intro i
      have h1 := congrFun (congrFun hcov i) i
      rw [diagonal_apply_eq] at h1
      rw [← h1]
      simp only [sampleVar, sampleCov, of_apply, columnMean, sq]
    have hmin : min n d = d := min_eq_right hdn
    have htr : (f.componentsᵀ * diagonal (fun i => e i - v) * f.components + v • (1 : Matrix (Fin d) (Fin d) ℝ)).trace =
        ∑ i, e i + v * ((d : ℝ) - k) := by
      rw [trace_add, trace_smul, trace_one, Matrix.mul_assoc, trace_mul_comm, Matrix.mul_assoc, horth, Matrix.mul_one, trace_diagonal,
        Finset.sum_sub_distrib]
      simp only [Finset.sum_const, Finset.card_univ, Fintype.card_fin, nsmul_eq_mul, smul_eq_mul]
      ring
    rw [htr]
    simp only [hvar] at heq
    have hkd : k ≤ d := by omega
    rw [hmin, Nat.cast_sub hkd] at heq
    split at heq
    · rename_i hk
      subst hk
      rw [heq, add_zero, total_variance hsvd, hei]
      refine Fintype.sum_equiv (finCongr hmin.symm) _ _ fun i => ?_
      rfl
    · rw [heq]
      ring
  · intro hk
    subst hk
    have hmin : k = min n k := le_antisymm h (min_le_right _ _)
    have hcc : f.componentsᵀ * f.components = 1 := mul_eq_one_comm.mp horth
    have h1 := cov_comp hsvd hS
    rw [← hei] at h1
    have h2 : sampleCov X = f.componentsᵀ * diagonal e * f.components := by
      rw [← h1, Matrix.mul_assoc, hcc, Matrix.mul_one]
    rw [h2]
    have h3 : diagonal (fun i => e i - v) = diagonal e - v • (1 : Matrix (Fin k) (Fin k) ℝ) := by
      ext i j
      by_cases hij : i = j
      · subst hij
        simp
      · simp [hij]
    rw [h3, Matrix.mul_sub, Matrix.sub_mul, Matrix.mul_smul, Matrix.mul_one, Matrix.smul_mul, hcc, sub_add_cancel]

/-- C86: after `fit`, `get_covariance` and `get_precision` with a noise variance above the cut-off of the pseudo-inverse, `score` is
the mean log density of the rows under the normal distribution with the mean of the rows scored (not of the training data) and the
covariance of the model. -/
theorem C86_score {m : Nat} (hn : 2 ≤ n) (hsvd : IsThinSVD (centred X) U s V) (f : Fitted k d) (hf : PCA.fit k U s V = .ok f)
    (C : Matrix (Fin d) (Fin d) ℝ) (hC : covarianceOf f = some C) (v : ℝ) (hv : f.noise = some v) (hpos : 1 / 1000000 < v)
    (svd : Matrix (Fin d) (Fin d) ℝ → Matrix (Fin d) (Fin d) ℝ × (Nat → ℝ) × Matrix (Fin d) (Fin d) ℝ)
    (lu : Matrix (Fin d) (Fin d) ℝ → Equiv.Perm (Fin d) × (Fin d → ℝ))
    (hsv : IsFullSVD C (svd C).1 (svd C).2.1 (svd C).2.2)
    (hlu : ∃ L U, IsPartialPivLU C⁻¹ (lu C⁻¹).1 L U ∧ ∀ i, (lu C⁻¹).2 i = U i i)
    (st : State k d) (Y : Matrix (Fin m) (Fin d) ℝ) :
    (do let st ← st.fit U s V
        let st ← st.getCovariance
        let st ← st.getPrecision svd
        st.score lu Y) = .ok (some (((∑ i, logNormal (columnMean Y) C (Y i)) / (m : ℝ) : ℝ) : WithBot ℝ)) := by
  obtain ⟨e, v', C', he, hv', hC', hsym, -, -, hq, -⟩ := C85_covariance X U s V hn hsvd f hf
  obtain rfl : v = v' := by rw [hv] at hv'; exact Option.some.inj hv'
  obtain rfl : C = C' := by rw [hC] at hC'; exact Option.some.inj hC'
  unfold State.fit State.getCovariance
  simp only [hf, Res.bind_ok, hC]
  obtain ⟨st', hst'⟩ : ∃ st', ({ fitted := some f, covariance := some (some C), precision := st.precision } : State k d).getPrecision svd
      = .ok st' := ⟨_, rfl⟩
  rw [hst', Res.bind_ok]
  refine (score_eq svd lu C hsv hlu hsym ?_ _ st' rfl hst' Y).2.2 st' rfl
  intro u hu
  refine lt_of_lt_of_le (mul_lt_mul_of_pos_right hpos ?_) (hq u)
  exact dot_self_pos hu

/-- C86: `score` keeps using the covariance of the time of the last `get_covariance` and `get_precision`: after fitting other data it
does not change, not even after another call of `get_precision`. -/
theorem C86_stale {m n' : Nat} (hn : 2 ≤ n) (hsvd : IsThinSVD (centred X) U s V) (f : Fitted k d) (hf : PCA.fit k U s V = .ok f)
    (C : Matrix (Fin d) (Fin d) ℝ) (hC : covarianceOf f = some C) (v : ℝ) (hv : f.noise = some v) (hpos : 1 / 1000000 < v)
    (X' : Matrix (Fin n') (Fin d) ℝ) (U' : Matrix (Fin n') (Fin (min n' d)) ℝ) (s' : Fin (min n' d) → ℝ)
    (V' : Matrix (Fin d) (Fin (min n' d)) ℝ) (hn' : 0 < n') (hsvd' : IsThinSVD (centred X') U' s' V') (hk' : k ≤ min n' d)
    (svd : Matrix (Fin d) (Fin d) ℝ → Matrix (Fin d) (Fin d) ℝ × (Nat → ℝ) × Matrix (Fin d) (Fin d) ℝ)
    (lu : Matrix (Fin d) (Fin d) ℝ → Equiv.Perm (Fin d) × (Fin d → ℝ))
    (hsv : IsFullSVD C (svd C).1 (svd C).2.1 (svd C).2.2)
    (hlu : ∃ L U, IsPartialPivLU C⁻¹ (lu C⁻¹).1 L U ∧ ∀ i, (lu C⁻¹).2 i = U i i) (again : Bool)
    (st : State k d) (Y : Matrix (Fin m) (Fin d) ℝ) :
    (do let st ← st.fit U s V
        let st ← st.getCovariance
        let st ← st.getPrecision svd
        let st ← st.fit U' s' V'
        let st ← if again then st.getPrecision svd else .ok st
        st.score lu Y) = .ok (some (((∑ i, logNormal (columnMean Y) C (Y i)) / (m : ℝ) : ℝ) : WithBot ℝ)) := by
  obtain ⟨f', hf'⟩ := (C84_defined X' U' s' V' (k := k) hn' hsvd').mpr hk'
  obtain ⟨e, v', C', he, hv', hC', hsym, -, -, hq, -⟩ := C85_covariance X U s V hn hsvd f hf
  obtain rfl : v = v' := by rw [hv] at hv'; exact Option.some.inj hv'
  obtain rfl : C = C' := by rw [hC] at hC'; exact Option.some.inj hC'
  have hq' : ∀ u, u ≠ 0 → 1 / 1000000 * (u ⬝ᵥ u) < u ⬝ᵥ (C *ᵥ u) := by
    intro u hu
    refine lt_of_lt_of_le (mul_lt_mul_of_pos_right hpos ?_) (hq u)
    exact dot_self_pos hu
  unfold State.fit State.getCovariance
  simp only [hf, hf', Res.bind_ok, hC]
  obtain ⟨st', hst'⟩ : ∃ st', ({ fitted := some f, covariance := some (some C), precision := st.precision } : State k d).getPrecision svd
      = .ok st' := ⟨_, rfl⟩
  rw [hst', Res.bind_ok]
  have h1 := score_eq svd lu C hsv hlu hsym hq' _ st' rfl hst' Y
  cases again
  · simp only [Bool.false_eq_true, if_false]
    exact h1.2.2 _ rfl
  · simp only [if_true]
    obtain ⟨st2, hst2⟩ : ∃ st2, ({ fitted := some f', covariance := st'.covariance, precision := st'.precision } : State k d).getPrecision svd
        = .ok st2 := by
      unfold State.getPrecision
      rw [h1.2.1]
      exact ⟨_, rfl⟩
    rw [hst2, Res.bind_ok]
    exact (score_eq svd lu C hsv hlu hsym hq' { fitted := some f', covariance := st'.covariance, precision := st'.precision } st2 h1.2.1 hst2 Y).2.2 st2 rfl

end

/-- Example for `C85_covariance`: with one component for the example data the covariance is diagonal, and the noise variance above the cut-off. -/
theorem example_cov : ∃ f, PCA.fit (n := 4) (d := 2) 1 exampleU ![4, 2] exampleV = .ok f ∧ f.noise = some (4 / 3) ∧
    covarianceOf f = some (diagonal ![16 / 3, 4 / 3]) := by
  obtain ⟨f, hf⟩ := (C84_defined (n := 4) (d := 2) (k := 1) exampleData exampleU ![4, 2] exampleV (by norm_num) example_svd).mpr (by decide)
  obtain ⟨σ, h, hS⟩ := fit_spec (n := 4) (d := 2) (X := exampleData) (by norm_num) example_svd hf
  have hv : f.noise = some (4 / 3) := by
    rw [hS.noi, explainedAll, if_neg (by norm_num)]
    unfold noiseOf
    rw [if_pos (by decide)]
    refine congrArg some ?_
    show (∑ i : Fin 2, if 2 - (2 - 1) ≤ i.val then (![4, 2] : Fin 2 → ℝ) i ^ 2 / (((4 : Nat) : ℝ) - 1) else 0) / ((1 : Nat) : ℝ) = _
    norm_num [Fin.sum_univ_two]
  obtain ⟨e, v, he, hv', -, -, hC⟩ := covariance_eq (n := 4) (d := 2) (X := exampleData) (by norm_num) example_svd hf
  obtain rfl : 4 / 3 = v := by rw [hv] at hv'; exact Option.some.inj hv'
  refine ⟨f, hf, hv, ?_⟩
  rw [hC]
  have he0 : e 0 = 16 / 3 := by
    rw [hS.expl, explainedAll, if_neg (by norm_num)] at he
    cases he
    show (4 : ℝ) ^ 2 / (((4 : Nat) : ℝ) - 1) = _
    norm_num
  have hc : ∀ j, f.components 0 j = σ (Fin.castLE h 0) * exampleV j 0 := by
    intro j
    rw [hS.comp]
    rfl
  have hs := sign_mul (hS.sign (Fin.castLE h 0))
  congr 1
  ext i j
  rw [Matrix.add_apply, mul_apply, Fin.sum_univ_one, mul_diagonal, transpose_apply, hc, hc, he0]
  have hr : ∀ a b c : ℝ, σ (Fin.castLE h 0) * a * b * (σ (Fin.castLE h 0) * c) = a * b * c := by
    intro a b c
    linear_combination a * b * c * hs
  rw [hr, exampleV, one_apply, one_apply]
  fin_cases i <;> fin_cases j <;> norm_num

/-- The hypotheses of C86 hold for the example data, with decompositions that fulfil their contracts. -/
example : ∃ (f : Fitted 1 2) (C : Matrix (Fin 2) (Fin 2) ℝ) (v : ℝ),
    IsThinSVD (n := 2) (k := min 4 2) (centred exampleData) exampleU ![4, 2] exampleV ∧
    PCA.fit (n := 4) (d := 2) 1 exampleU ![4, 2] exampleV = .ok f ∧ covarianceOf f = some C ∧ f.noise = some v ∧ 1 / 1000000 < v ∧
    (∃ U s V, IsFullSVD C U s V) ∧ ∃ p L U, IsPartialPivLU C⁻¹ p L U := by
  obtain ⟨f, hf, hv, hC⟩ := example_cov
  refine ⟨f, _, _, example_svd, hf, hC, hv, by norm_num, ⟨1, fun i => if i = 0 then 16 / 3 else 4 / 3, 1, by simp, by simp, ?_, ?_⟩,
    1, 1, (diagonal ![16 / 3, 4 / 3])⁻¹, by simp, ?_, by simp, ?_⟩
  · intro i _ _
    split <;> norm_num
  · rw [Matrix.one_mul, transpose_one, Matrix.mul_one]
    ext i j
    fin_cases i <;> fin_cases j <;> norm_num
  · intro i j hij
    exact one_apply_ne hij.ne
  · intro i j hij
    rw [inv_diagonal, diagonal_apply_ne _ hij.ne']

/-- C86: the three calls are all needed, in this order: an object without `get_precision` has no score, without `get_covariance` no
precision and without `fit` no covariance. -/
theorem C86_order {k d m : Nat} (svd : Matrix (Fin d) (Fin d) ℝ → Matrix (Fin d) (Fin d) ℝ × (Nat → ℝ) × Matrix (Fin d) (Fin d) ℝ)
    (lu : Matrix (Fin d) (Fin d) ℝ → Equiv.Perm (Fin d) × (Fin d → ℝ)) (Y : Matrix (Fin m) (Fin d) ℝ)
    {n : Nat} (U : Matrix (Fin n) (Fin (min n d)) ℝ) (s : Fin (min n d) → ℝ) (V : Matrix (Fin d) (Fin (min n d)) ℝ)
    (st : State k d) (hst : (State.new k d).fit U s V = .ok st) :
    (State.new k d).getCovariance = .ub ∧ st.getPrecision svd = .ub ∧ st.score lu Y = .ub ∧
    ∃ st', st.getCovariance = .ok st' ∧ st'.score lu Y = .ub := by
  unfold State.fit at hst
  rw [Res.bind_eq_ok] at hst
  obtain ⟨f, -, hf⟩ := hst
  cases hf
  exact ⟨rfl, rfl, rfl, _, rfl, rfl⟩

/-- The example data give an object to which C86 applies. -/
example : ∃ st, (State.new 1 2).fit (n := 4) exampleU ![4, 2] exampleV = .ok st := by
  obtain ⟨f, hf⟩ := (C84_defined (n := 4) (d := 2) (k := 1) exampleData exampleU ![4, 2] exampleV (by norm_num) example_svd).mpr (by decide)
  exact ⟨_, by unfold State.fit; rw [hf]; rfl⟩

end OpenML
