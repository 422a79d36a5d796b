import Verif.Spec.PCA
import Mathlib.Analysis.InnerProductSpace.GramSchmidtOrtho
import Mathlib.Analysis.Matrix.Spectrum
import Mathlib.Analysis.Matrix.PosDef
import Mathlib.Data.Fin.Tuple.Sort

/-!
# Every matrix has decompositions fulfilling the contracts

The contracts assumed of Eigen's decompositions can be fulfilled for every matrix, so that hypotheses which assume them for all matrices
are not contradictory.
-/

namespace OpenML.Spec

open Matrix

/-- Columns of an orthonormal basis form an orthogonal matrix. -/
theorem orthogonal_of_basis {m : Nat} (b : OrthonormalBasis (Fin m) ℝ (EuclideanSpace ℝ (Fin m))) :
    (Matrix.of fun i j => b j i : Matrix (Fin m) (Fin m) ℝ)ᵀ * (Matrix.of fun i j => b j i) = 1 := by
  ext i j
  rw [mul_apply]
  simp only [transpose_apply, of_apply]
  have := (orthonormal_iff_ite.mp b.orthonormal) i j
  rw [EuclideanSpace.inner_eq_star_dotProduct] at this
  simp only [dotProduct, star_trivial, Pi.star_apply] at this
  rw [one_apply, ← this]
  exact Finset.sum_congr rfl fun q _ => mul_comm _ _

/-- Every matrix has a QR decomposition. -/
theorem exists_householderQR {m n : Nat} (x : Matrix (Fin m) (Fin n) ℝ) : ∃ H R, IsHouseholderQR x H R := by
  let col : Fin n → EuclideanSpace ℝ (Fin m) := fun j => WithLp.toLp 2 fun i => x i j
  let f : Fin m → EuclideanSpace ℝ (Fin m) := fun i => if h : i.val < n then col ⟨i.val, h⟩ else 0
  let b := InnerProductSpace.gramSchmidtOrthonormalBasis (𝕜 := ℝ) (by simp : Module.finrank ℝ (EuclideanSpace ℝ (Fin m)) = Fintype.card (Fin m)) f
  refine ⟨Matrix.of fun i j => b j i, Matrix.of fun i j => inner ℝ (b i) (col j), orthogonal_of_basis b, ?_⟩
  ext i j
  rw [mul_apply]
  have h1 : ∀ q : Fin m, (if q.val ≤ j.val then inner ℝ (b q) (col j) else 0) = inner ℝ (b q) (col j) := by
    intro q
    split
    · rfl
    · rename_i hq
      have hj : j.val < m := by have := q.2; omega
      have := InnerProductSpace.gramSchmidtOrthonormalBasis_inv_triangular (𝕜 := ℝ)
        (by simp : Module.finrank ℝ (EuclideanSpace ℝ (Fin m)) = Fintype.card (Fin m)) f (i := ⟨j.val, hj⟩) (j := q) (by
          show j.val < q.val
          omega)
      have hf : f ⟨j.val, hj⟩ = col j := by
        show (if h : j.val < n then col ⟨j.val, h⟩ else 0) = _
        rw [dif_pos j.2]
      rw [hf] at this
      exact this.symm
  simp only [of_apply, h1]
  have h2 := congrArg (fun v : EuclideanSpace ℝ (Fin m) => v i) (b.sum_repr' (col j))
  have h3 : x i j = col j i := rfl
  rw [h3]
  conv_lhs => rw [← h2]
  simp only [WithLp.ofLp_sum, WithLp.ofLp_smul, Finset.sum_apply, Pi.smul_apply, smul_eq_mul]
  exact Finset.sum_congr rfl fun q _ => mul_comm _ _

/-- Contract of the full decompositions of Eigen, with the order of the singular values. -/
structure IsSortedSVD {m n : Nat} (x : Matrix (Fin m) (Fin n) ℝ) (U : Matrix (Fin m) (Fin m) ℝ) (s : Nat → ℝ)
    (V : Matrix (Fin n) (Fin n) ℝ) : Prop extends IsFullSVD x U s V where
  sorted : ∀ i j, i ≤ j → j < m → j < n → s j ≤ s i

/-- Every matrix has a singular value decomposition. -/
theorem exists_sortedSVD {m n : Nat} (x : Matrix (Fin m) (Fin n) ℝ) : ∃ U s V, IsSortedSVD x U s V := by
  have hA : (xᵀ * x).IsHermitian := by
    rw [IsHermitian, conjTranspose_eq_transpose_of_trivial, transpose_mul, transpose_transpose]
  let σ := Tuple.sort fun i => -hA.eigenvalues i
  let b := hA.eigenvectorBasis.reindex σ.symm
  let lam : Fin n → ℝ := fun i => hA.eigenvalues (σ i)
  have hmono : Antitone lam := by
    intro i j hij
    have := Tuple.monotone_sort (fun i => -hA.eigenvalues i) hij
    simp only [Function.comp_apply] at this
    exact neg_le_neg_iff.mp this
  have hb : ∀ i, (xᵀ * x) *ᵥ (b i).ofLp = lam i • (b i).ofLp := by
    intro i
    have := hA.mulVec_eigenvectorBasis (σ i)
    simpa [b, lam] using this
  have hbb : ∀ i j, (b i).ofLp ⬝ᵥ (b j).ofLp = if i = j then 1 else 0 := by
    intro i j
    have := (orthonormal_iff_ite.mp b.orthonormal) i j
    rw [EuclideanSpace.inner_eq_star_dotProduct] at this
    rw [← this, dotProduct_comm]
    simp
  have hxx : ∀ i j, (x *ᵥ (b i).ofLp) ⬝ᵥ (x *ᵥ (b j).ofLp) = if i = j then lam i else 0 := by
    intro i j
    rw [dotProduct_mulVec, ← mulVec_transpose, mulVec_mulVec, hb, smul_dotProduct, hbb]
    split
    · simp
    · simp
  have hnn : ∀ i, 0 ≤ lam i := by
    intro i
    have := hxx i i
    rw [if_pos rfl] at this
    rw [← this]
    exact Finset.sum_nonneg fun _ _ => mul_self_nonneg _
  -- normalised images
  let w : Fin n → EuclideanSpace ℝ (Fin m) := fun i => WithLp.toLp 2 ((Real.sqrt (lam i))⁻¹ • (x *ᵥ (b i).ofLp))
  have hw : ∀ i j, 0 < lam i → 0 < lam j → inner ℝ (w i) (w j) = if i = j then 1 else 0 := by
    intro i j hi hj
    rw [EuclideanSpace.inner_eq_star_dotProduct, star_trivial, dotProduct_comm]
    show ((Real.sqrt (lam i))⁻¹ • (x *ᵥ (b i).ofLp)) ⬝ᵥ ((Real.sqrt (lam j))⁻¹ • (x *ᵥ (b j).ofLp)) = _
    rw [smul_dotProduct, dotProduct_smul, hxx]
    split
    · rename_i hij
      subst hij
      rw [smul_eq_mul, smul_eq_mul]
      have := Real.sqrt_pos.mpr hi
      have h2 := Real.mul_self_sqrt hi.le
      field_simp
      rw [sq, h2]
    · simp
  have hbound : ∀ i : Fin n, m ≤ i.val → lam i = 0 := by
    intro i hi
    by_contra hne
    have hpos : 0 < lam i := lt_of_le_of_ne (hnn i) (Ne.symm hne)
    have hle : m + 1 ≤ n := by have := i.2; omega
    have hall : ∀ q : Fin (m + 1), 0 < lam (Fin.castLE hle q) := by
      intro q
      refine lt_of_lt_of_le hpos (hmono ?_)
      show q.val ≤ i.val
      have := q.2
      omega
    have horth : Orthonormal ℝ fun q : Fin (m + 1) => w (Fin.castLE hle q) := by
      rw [orthonormal_iff_ite]
      intro p q
      rw [hw _ _ (hall p) (hall q)]
      simp only [(Fin.castLE_injective hle).eq_iff]
    have := horth.linearIndependent.fintype_card_le_finrank
    simp at this
  let v : Fin m → EuclideanSpace ℝ (Fin m) := fun i => if h : i.val < n then w ⟨i.val, h⟩ else 0
  obtain ⟨c, hc⟩ := Orthonormal.exists_orthonormalBasis_extension_of_card_eq (𝕜 := ℝ)
    (by simp : Module.finrank ℝ (EuclideanSpace ℝ (Fin m)) = Fintype.card (Fin m)) (v := v)
    (s := {i : Fin m | ∃ h : i.val < n, 0 < lam ⟨i.val, h⟩}) (by
      rw [orthonormal_iff_ite]
      rintro ⟨i, hi, hi'⟩ ⟨j, hj, hj'⟩
      simp only [Set.domRestrict_apply, v, dif_pos hi, dif_pos hj]
      rw [hw _ _ hi' hj']
      simp [Fin.ext_iff])
  let s : Nat → ℝ := fun i => if h : i < n then Real.sqrt (lam ⟨i, h⟩) else 0
  refine ⟨Matrix.of fun i j => c j i, s, Matrix.of fun i j => b j i, ⟨orthogonal_of_basis c, orthogonal_of_basis b, ?_, ?_⟩, ?_⟩
  · intro i _ hi
    simp only [s, dif_pos hi]
    exact Real.sqrt_nonneg _
  · have hV := orthogonal_of_basis b
    have key : x * (Matrix.of fun i j => b j i) = (Matrix.of fun i j => c j i) *
        (Matrix.of fun (i : Fin m) (j : Fin n) => if i.val = j.val then s i.val else 0) := by
      ext a j
      have hl : (x * (Matrix.of fun i j => b j i)) a j = (x *ᵥ (b j).ofLp) a := rfl
      rw [hl]
      by_cases hj : j.val < m
      · rw [mul_apply, Finset.sum_eq_single (⟨j.val, hj⟩ : Fin m)]
        · simp only [of_apply, if_true, s, dif_pos j.2]
          by_cases hp : 0 < lam j
          · rw [hc ⟨j.val, hj⟩ ⟨j.2, hp⟩]
            simp only [v, dif_pos j.2, w]
            show _ = (Real.sqrt (lam j))⁻¹ * (x *ᵥ (b j).ofLp) a * Real.sqrt (lam j)
            have := Real.sqrt_pos.mpr hp
            field_simp
          · have h0 : lam j = 0 := le_antisymm (not_lt.mp hp) (hnn j)
            have h1 := hxx j j
            rw [if_pos rfl, h0] at h1
            have h2 := dotProduct_self_eq_zero.mp h1
            rw [h2]
            show (0 : ℝ) = c ⟨j.val, hj⟩ a * Real.sqrt (lam j)
            rw [h0, Real.sqrt_zero, mul_zero]
        · intro q _ hq
          rw [of_apply, of_apply, if_neg (fun he => hq (Fin.ext he)), mul_zero]
        · simp
      · have h0 := hbound j (not_lt.mp hj)
        have h1 := hxx j j
        rw [if_pos rfl, h0] at h1
        have h2 := dotProduct_self_eq_zero.mp h1
        rw [h2, mul_apply]
        symm
        refine Finset.sum_eq_zero fun q _ => ?_
        rw [of_apply, of_apply, if_neg (by have := q.2; omega), mul_zero]
    rw [← key, Matrix.mul_assoc, mul_eq_one_comm.mp hV, Matrix.mul_one]
  · intro i j hij _ hj
    simp only [s, dif_pos hj, dif_pos (lt_of_le_of_lt hij hj)]
    exact Real.sqrt_le_sqrt (hmono hij)

end OpenML.Spec
