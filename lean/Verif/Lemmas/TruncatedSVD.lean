import Verif.Model.TruncatedSVD
import Verif.Lemmas.PCA
import Verif.Lemmas.Decompositions
import Verif.Props.LinAlg

/-!
# Lemmas for the randomized singular value decomposition
-/

namespace OpenML.TruncatedSVD

open Matrix Spec

/-- The contracts of Eigen's decompositions, for every matrix. -/
structure Decompositions.Correct (dec : Decompositions) : Prop where
  householder : ∀ {m n : Nat} (x : Matrix (Fin m) (Fin n) ℝ), IsHouseholderQR x (dec.householder x).1 (dec.householder x).2
  svd : ∀ {m n : Nat} (x : Matrix (Fin m) (Fin n) ℝ), IsSortedSVD x (dec.svd x).1 (dec.svd x).2.1 (dec.svd x).2.2

/-- The contracts can be fulfilled. -/
theorem exists_correct : ∃ dec : Decompositions, dec.Correct := by
  choose H R h1 using @exists_householderQR
  choose U s V h2 using @exists_sortedSVD
  exact ⟨⟨fun x => (1, x), fun x => (H x, R x), fun x => (U x, s x, V x)⟩, ⟨fun x => h1 x, fun x => h2 x⟩⟩

theorem rectDiag_orth {m K : Nat} (h : K ≤ m) : (LinAlg.rectDiag m K fun _ => 1)ᵀ * (LinAlg.rectDiag m K fun _ => 1) = 1 := by
  ext i j
  rw [mul_apply, Finset.sum_eq_single (Fin.castLE h i)]
  · simp only [LinAlg.rectDiag, transpose_apply, of_apply, Fin.val_castLE, if_true, one_mul, one_apply, Fin.ext_iff]
  · intro q _ hq
    rw [transpose_apply, LinAlg.rectDiag, of_apply, if_neg (fun he : q.val = i.val => hq (Fin.ext he)), zero_mul]
  · simp

theorem qrQ_orth {m K : Nat} {dec : Decompositions} (hd : dec.Correct) (h : K ≤ m) (x : Matrix (Fin m) (Fin K) ℝ) :
    (qrQ dec x)ᵀ * qrQ dec x = 1 := by
  unfold qrQ
  rw [transpose_mul, Matrix.mul_assoc, ← Matrix.mul_assoc _ (dec.householder x).1, (hd.householder x).orthogonal, Matrix.one_mul,
    rectDiag_orth h]

theorem qrQ_product {m K : Nat} {dec : Decompositions} (hd : dec.Correct) (h : K ≤ m) (x : Matrix (Fin m) (Fin K) ℝ) :
    ∃ R, qrQ dec x * R = x := by
  refine ⟨Matrix.of fun i j => if i ≤ j then (dec.householder x).2 (Fin.castLE h i) j else 0, ?_⟩
  conv_rhs => rw [(hd.householder x).product]
  unfold qrQ
  rw [Matrix.mul_assoc]
  congr 1
  ext i j
  rw [mul_apply]
  by_cases hi : i.val < K
  · rw [Finset.sum_eq_single (⟨i.val, hi⟩ : Fin K)]
    · rw [LinAlg.rectDiag, of_apply, if_pos rfl, one_mul]
      rfl
    · intro q _ hq
      rw [LinAlg.rectDiag, of_apply, if_neg (fun he => hq (Fin.ext he.symm)), zero_mul]
    · simp
  · rw [of_apply, if_neg (by have := j.2; omega)]
    refine Finset.sum_eq_zero fun q _ => ?_
    rw [LinAlg.rectDiag, of_apply, if_neg (by have := q.2; omega), zero_mul]

/-- The square matrix `P * L` is invertible. -/
theorem luQ_unit {K : Nat} (dec : Decompositions) (x : Matrix (Fin K) (Fin K) ℝ) : IsUnit (luQ dec x).det := by
  unfold luQ
  rw [det_mul, det_permutation, det_of_isLowerTriangular _ (by
    intro i j hij
    have : i.val < j.val := hij
    rw [of_apply, if_neg (by omega), if_neg (by omega)])]
  simp only [of_apply, if_true, Finset.prod_const_one, mul_one]
  rcases Int.units_eq_one_or (Equiv.Perm.sign (dec.fullPivLU x).1) with h | h <;> simp [h]

theorem unit_of_orth {K : Nat} {Q : Matrix (Fin K) (Fin K) ℝ} (h : Qᵀ * Q = 1) : IsUnit Q.det := by
  have := congrArg det h
  rw [det_mul, det_one] at this
  exact IsUnit.of_mul_eq_one _ (by rw [mul_comm]; exact this)

/-- A power of the Gram matrix does not shrink the range. -/
theorem gram_range {M N : Nat} (X : Matrix (Fin M) (Fin N) ℝ) (i : Nat) : ∃ Z, X * (Xᵀ * X) ^ i * Z = X := by
  obtain ⟨U, s, V, h⟩ := exists_sortedSVD X
  have hP := C32_truncated X U s V h.toIsFullSVD 0 le_rfl
  have hX : U * (Matrix.of fun (i : Fin M) (j : Fin N) => if i.val = j.val then (if s i.val ≤ 0 then 0 else s i.val) else 0) * Vᵀ = X := by
    conv_rhs => rw [h.product]
    congr 2
    ext i j
    rw [of_apply, of_apply]
    split
    · rename_i hij
      split
      · exact le_antisymm (h.nonneg _ i.2 (hij ▸ j.2)) ‹_›
      · rfl
    · rfl
  rw [hX] at hP
  generalize LinAlg.pinv 0 U s V = P at hP
  have h1 : Xᵀ * X * P = Xᵀ := by
    rw [Matrix.mul_assoc, ← hP.left, ← transpose_mul, hP.inner]
  have h2 : X * (Xᵀ * X) * (P * Pᵀ) = X := by
    calc X * (Xᵀ * X) * (P * Pᵀ) = X * (Xᵀ * X * P) * Pᵀ := by simp only [Matrix.mul_assoc]
      _ = X * (Xᵀ * Pᵀ) := by rw [h1, Matrix.mul_assoc]
      _ = X * (P * X) := by rw [← transpose_mul, hP.right]
      _ = X := by rw [← Matrix.mul_assoc, hP.inner]
  generalize P * Pᵀ = Z at h2
  have h3 : ∀ i : Nat, ∃ W, (Xᵀ * X) ^ (i + 1) * W = Xᵀ * X := by
    intro i
    induction i with
    | zero => exact ⟨1, by rw [zero_add, pow_one, Matrix.mul_one]⟩
    | succ i ih =>
      obtain ⟨W, hW⟩ := ih
      refine ⟨Z * W, ?_⟩
      have h4 : (Xᵀ * X) * (Xᵀ * X) * Z = Xᵀ * X := by
        calc (Xᵀ * X) * (Xᵀ * X) * Z = Xᵀ * (X * (Xᵀ * X) * Z) := by simp only [Matrix.mul_assoc]
          _ = Xᵀ * X := by rw [h2]
      calc (Xᵀ * X) ^ (i + 1 + 1) * (Z * W) = (Xᵀ * X) ^ i * ((Xᵀ * X) * (Xᵀ * X) * Z) * W := by
            rw [pow_succ, pow_succ]; simp only [Matrix.mul_assoc]
        _ = (Xᵀ * X) ^ (i + 1) * W := by rw [h4, ← pow_succ]
        _ = _ := hW
  cases i with
  | zero => exact ⟨1, by rw [pow_zero, Matrix.mul_one, Matrix.mul_one]⟩
  | succ i =>
    obtain ⟨W, hW⟩ := h3 i
    refine ⟨W * Z, ?_⟩
    calc X * (Xᵀ * X) ^ (i + 1) * (W * Z) = X * ((Xᵀ * X) ^ (i + 1) * W) * Z := by simp only [Matrix.mul_assoc]
      _ = X := by rw [hW, h2]

/-- The names of normalizers the loop knows. -/
def Known (normalizer : String) : Prop := normalizer = "None" ∨ normalizer = "LU" ∨ normalizer = "QR"

theorem power_known {M N K : Nat} (dec : Decompositions) (X : Matrix (Fin M) (Fin N) ℝ) {normalizer : String}
    (hk : Known normalizer) (i : Nat) (Q : Matrix (Fin N) (Fin K) ℝ) : ∃ Q', power dec X normalizer i Q = .ok Q' := by
  induction i generalizing Q with
  | zero => exact ⟨Q, rfl⟩
  | succ i ih =>
    unfold power powerStep
    rcases hk with rfl | rfl | rfl
    · rw [if_pos rfl, Res.bind_ok]
      exact ih _
    · rw [if_neg (by decide), if_pos rfl, Res.bind_ok]
      exact ih _
    · rw [if_neg (by decide), if_neg (by decide), if_pos rfl, Res.bind_ok]
      exact ih _

theorem power_unknown {M N K : Nat} (dec : Decompositions) (X : Matrix (Fin M) (Fin N) ℝ) {normalizer : String}
    (hk : ¬ Known normalizer) (i : Nat) (Q : Matrix (Fin N) (Fin K) ℝ) : power dec X normalizer (i + 1) Q = .throw .invalidArgument := by
  simp only [Known, not_or] at hk
  unfold power powerStep
  rw [if_neg hk.1, if_neg hk.2.1, if_neg hk.2.2]
  rfl

theorem power_none {M N K : Nat} (dec : Decompositions) (X : Matrix (Fin M) (Fin N) ℝ) (i : Nat) (Q : Matrix (Fin N) (Fin K) ℝ) :
    power dec X "None" i Q = .ok ((Xᵀ * X) ^ i * Q) := by
  induction i generalizing Q with
  | zero => rw [pow_zero, Matrix.one_mul]; rfl
  | succ i ih =>
    unfold power powerStep
    rw [if_pos rfl, Res.bind_ok, ih, pow_succ]
    simp only [Matrix.mul_assoc]

/-- With as many random vectors as features the last step keeps the range of `X`. -/
theorem power_range {M K : Nat} {dec : Decompositions} (hd : dec.Correct) (X : Matrix (Fin M) (Fin K) ℝ) (normalizer : String)
    (i : Nat) (Q Q' : Matrix (Fin K) (Fin K) ℝ) (hQ : (0 < i ∧ normalizer ≠ "None") ∨ IsUnit Q.det)
    (h : power dec X normalizer i Q = .ok Q') : ∃ Z, X * Q' * Z = X := by
  have hunit : ∀ W : Matrix (Fin K) (Fin K) ℝ, IsUnit W.det → ∃ Z, X * W * Z = X := fun W hW =>
    ⟨W⁻¹, by rw [Matrix.mul_assoc, mul_nonsing_inv _ hW, Matrix.mul_one]⟩
  by_cases hnone : normalizer = "None"
  · subst hnone
    rw [power_none] at h
    cases h
    have hQ : IsUnit Q.det := by
      rcases hQ with hQ | hQ
      · exact absurd rfl hQ.2
      · exact hQ
    obtain ⟨Z, hZ⟩ := gram_range X i
    refine ⟨Q⁻¹ * Z, ?_⟩
    calc X * ((Xᵀ * X) ^ i * Q) * (Q⁻¹ * Z) = X * (Xᵀ * X) ^ i * (Q * Q⁻¹) * Z := by simp only [Matrix.mul_assoc]
      _ = X := by rw [mul_nonsing_inv _ hQ, Matrix.mul_one, hZ]
  · have key : ∀ (i : Nat) (Q : Matrix (Fin K) (Fin K) ℝ), power dec X normalizer i Q = .ok Q' → 0 < i ∨ IsUnit Q.det → IsUnit Q'.det := by
      intro i
      induction i with
      | zero =>
        intro Q h hQ
        cases h
        rcases hQ with hQ | hQ
        · exact absurd hQ (lt_irrefl _)
        · exact hQ
      | succ i ih =>
        intro Q h _
        unfold power powerStep at h
        rw [if_neg hnone] at h
        split at h
        · exact ih _ h (Or.inr (luQ_unit _ _))
        · split at h
          · exact ih _ h (Or.inr (unit_of_orth (qrQ_orth hd le_rfl _)))
          · cases h
    refine hunit _ (key i Q h ?_)
    rcases hQ with hQ | hQ
    · exact Or.inl hQ.1
    · exact Or.inr hQ

/-- The exact decomposition before the signs are fixed. -/
theorem thin_svd {M K : Nat} {dec : Decompositions} (hd : dec.Correct) (hKM : K ≤ M) (X : Matrix (Fin M) (Fin K) ℝ)
    (Q : Matrix (Fin K) (Fin K) ℝ) (hZ : ∃ Z, X * Q * Z = X) :
    IsThinSVD X (qrQ dec (X * Q) * (dec.svd ((qrQ dec (X * Q))ᵀ * X)).1) (fun i => (dec.svd ((qrQ dec (X * Q))ᵀ * X)).2.1 i.val)
      (dec.svd ((qrQ dec (X * Q))ᵀ * X)).2.2 := by
  have hs := hd.svd ((qrQ dec (X * Q))ᵀ * X)
  have ho := qrQ_orth hd hKM (X * Q)
  obtain ⟨R, hR⟩ := qrQ_product hd hKM (X * Q)
  generalize qrQ dec (X * Q) = W at *
  generalize dec.svd (Wᵀ * X) = r at *
  obtain ⟨Z, hZ⟩ := hZ
  refine ⟨?_, hs.right, fun i => hs.nonneg _ i.2 i.2, fun i j hij => hs.sorted _ _ hij j.2 j.2, ?_⟩
  · rw [transpose_mul, Matrix.mul_assoc, ← Matrix.mul_assoc _ W, ho, Matrix.one_mul, hs.left]
  · have h1 : W * (Wᵀ * X) = X := by
      rw [← hZ, ← hR]
      calc W * (Wᵀ * (W * R * Z)) = W * (Wᵀ * W) * R * Z := by simp only [Matrix.mul_assoc]
        _ = W * R * Z := by rw [ho, Matrix.mul_one]
    have h2 : (Matrix.of fun (i : Fin K) (j : Fin K) => if i.val = j.val then r.2.1 i.val else 0) = diagonal fun i => r.2.1 i.val := by
      ext i j
      by_cases hij : i = j
      · subst hij
        simp
      · rw [of_apply, diagonal_apply_ne _ hij, if_neg (fun he => hij (Fin.ext he))]
    calc X = W * (Wᵀ * X) := h1.symm
      _ = W * (r.1 * (diagonal fun i => r.2.1 i.val) * r.2.2ᵀ) := by rw [← h2, ← hs.product]
      _ = _ := by simp only [Matrix.mul_assoc]

end OpenML.TruncatedSVD
