import Verif.Lemmas.TruncatedSVD
import Verif.Props.PCA

/-!
# Randomized and truncated singular value decomposition (C60, C87, C88)
-/

namespace OpenML

open Matrix Spec TruncatedSVD

namespace TruncatedSVD

theorem cols_orth {m k K : Nat} {U : Matrix (Fin m) (Fin K) ℝ} (h : Uᵀ * U = 1) (hk : k ≤ K) :
    (Matrix.of fun i (j : Fin k) => U i (Fin.castLE hk j) : Matrix (Fin m) (Fin k) ℝ)ᵀ *
      (Matrix.of fun i (j : Fin k) => U i (Fin.castLE hk j)) = 1 := by
  ext i j
  have := congrFun (congrFun h (Fin.castLE hk i)) (Fin.castLE hk j)
  rw [mul_apply] at this ⊢
  simp only [transpose_apply, of_apply] at this ⊢
  rw [this, one_apply, one_apply]
  simp only [(Fin.castLE_injective hk).eq_iff]

theorem sign_sq {K : Nat} {σ : Fin K → ℝ} (h : ∀ j, σ j = 1 ∨ σ j = -1) : diagonal σ * diagonal σ = 1 := by
  rw [diagonal_mul_diagonal, ← diagonal_one]
  congr 1
  funext j
  rcases h j with h | h <;> rw [h] <;> norm_num

/-- Flipping the signs of a thin decomposition gives a thin decomposition. -/
theorem thin_signs {m n K : Nat} {x : Matrix (Fin m) (Fin n) ℝ} {U : Matrix (Fin m) (Fin K) ℝ} {s : Fin K → ℝ}
    {V : Matrix (Fin n) (Fin K) ℝ} (h : IsThinSVD x U s V) {σ : Fin K → ℝ} (hσ : ∀ j, σ j = 1 ∨ σ j = -1) :
    IsThinSVD x (U * diagonal σ) s (V * diagonal σ) := by
  have h1 := sign_sq hσ
  have ho : ∀ {a : Nat} (W : Matrix (Fin a) (Fin K) ℝ), Wᵀ * W = 1 → (W * diagonal σ)ᵀ * (W * diagonal σ) = 1 := by
    intro a W hW
    calc (W * diagonal σ)ᵀ * (W * diagonal σ) = diagonal σ * (Wᵀ * W) * diagonal σ := by
          rw [transpose_mul, diagonal_transpose]; simp only [Matrix.mul_assoc]
      _ = 1 := by rw [hW, Matrix.mul_one, h1]
  refine ⟨ho U h.left, ho V h.right, h.nonneg, h.sorted, ?_⟩
  have h2 : diagonal σ * diagonal s * diagonal σ = diagonal s := by
    rw [diagonal_mul_diagonal, diagonal_mul_diagonal]
    congr 1
    funext j
    rcases hσ j with h | h <;> rw [h] <;> ring
  calc x = U * diagonal s * Vᵀ := h.product
    _ = U * (diagonal σ * diagonal s * diagonal σ) * Vᵀ := by rw [h2]
    _ = U * diagonal σ * diagonal s * (V * diagonal σ)ᵀ := by
        rw [transpose_mul, diagonal_transpose]; simp only [Matrix.mul_assoc]

/-- Among unit vectors orthogonal to the first right vectors, the next one has the longest image. -/
theorem thin_max {m n K : Nat} {x : Matrix (Fin m) (Fin n) ℝ} {U : Matrix (Fin m) (Fin K) ℝ} {s : Fin K → ℝ}
    {V : Matrix (Fin n) (Fin K) ℝ} (h : IsThinSVD x U s V) (i : Fin K) (v : Fin n → ℝ) (hv : v ⬝ᵥ v = 1)
    (hort : ∀ j < i, Vᵀ j ⬝ᵥ v = 0) : (x *ᵥ v) ⬝ᵥ (x *ᵥ v) ≤ s i ^ 2 := by
  have h1 : (x *ᵥ v) ⬝ᵥ (x *ᵥ v) = ∑ q, s q ^ 2 * ((Vᵀ *ᵥ v) q) ^ 2 := by
    have h2 : x *ᵥ v = U *ᵥ (diagonal s *ᵥ (Vᵀ *ᵥ v)) := by
      conv_lhs => rw [h.product]
      rw [← mulVec_mulVec, ← mulVec_mulVec]
    rw [h2, dotProduct_mulVec, ← mulVec_transpose, mulVec_mulVec, h.left, one_mulVec]
    simp only [dotProduct, mulVec_diagonal]
    exact Finset.sum_congr rfl fun q _ => by ring
  rw [h1]
  have h2 : ∀ q, s q ^ 2 * ((Vᵀ *ᵥ v) q) ^ 2 ≤ s i ^ 2 * ((Vᵀ *ᵥ v) q) ^ 2 := by
    intro q
    by_cases hq : q < i
    · have h0 : (Vᵀ *ᵥ v) q = 0 := hort q hq
      rw [h0]
      simp
    · exact mul_le_mul_of_nonneg_right (pow_le_pow_left₀ (h.nonneg q) (h.sorted (not_lt.mp hq)) 2) (sq_nonneg _)
  refine (Finset.sum_le_sum fun q _ => h2 q).trans ?_
  rw [← Finset.mul_sum]
  have := PCA.bessel h.right v
  rw [hv] at this
  exact mul_le_of_le_one_right (sq_nonneg _) this

/-- What `randomizedSvd` returns after the loop. -/
theorem randomizedSvd_eq {M N : Nat} (dec : Decompositions) (X : Matrix (Fin M) (Fin N) ℝ) (k p iters : Nat) (normalizer : String)
    (flipSign : Bool) (Q0 Q1 : Matrix (Fin N) (Fin (k + p)) ℝ) (h : k + p ≤ min M N) (hQ : power dec X normalizer iters Q0 = .ok Q1) :
    randomizedSvd dec X k p iters normalizer flipSign Q0 =
      (if flipSign then PCA.flip (qrQ dec (X * Q1) * (dec.svd ((qrQ dec (X * Q1))ᵀ * X)).1) (dec.svd ((qrQ dec (X * Q1))ᵀ * X)).2.2ᵀ
        else .ok (qrQ dec (X * Q1) * (dec.svd ((qrQ dec (X * Q1))ᵀ * X)).1, (dec.svd ((qrQ dec (X * Q1))ᵀ * X)).2.2ᵀ)) >>= fun r =>
      .ok (Matrix.of fun i j => r.1 i (Fin.castLE (Nat.le_add_right k p) j),
         fun i => (dec.svd ((qrQ dec (X * Q1))ᵀ * X)).2.1 i.val,
         Matrix.of fun i j => r.2 (Fin.castLE (by omega) i) j) := by
  unfold randomizedSvd
  rw [dif_neg (by omega), hQ, Res.bind_ok]
  cases flipSign <;> rfl

/-- The exact decomposition, with as many random vectors as features. -/
theorem exact {M k p : Nat} {dec : Decompositions} (hd : dec.Correct) (X : Matrix (Fin M) (Fin (k + p)) ℝ) (iters : Nat)
    (normalizer : String) (flipSign : Bool) (Q0 Q1 : Matrix (Fin (k + p)) (Fin (k + p)) ℝ) (hM : 0 < M) (hKM : k + p ≤ M)
    (hQ : power dec X normalizer iters Q0 = .ok Q1) (hinv : (0 < iters ∧ normalizer ≠ "None") ∨ IsUnit Q0.det) :
    ∃ (U : Matrix (Fin M) (Fin (k + p)) ℝ) (s : Fin (k + p) → ℝ) (V : Matrix (Fin (k + p)) (Fin (k + p)) ℝ), IsThinSVD X U s V ∧
      (flipSign = true → ∀ j, ∃ q, 0 < U q j ∧ ∀ i, |U i j| ≤ U q j ∧ (|U i j| = U q j → q ≤ i)) ∧
      randomizedSvd dec X k p iters normalizer flipSign Q0 =
        .ok (Matrix.of fun i j => U i (Fin.castLE (Nat.le_add_right k p) j), fun i => s (Fin.castLE (Nat.le_add_right k p) i),
          Matrix.of fun i j => V j (Fin.castLE (Nat.le_add_right k p) i)) := by
  rw [randomizedSvd_eq dec X k p iters normalizer flipSign Q0 Q1 (by omega) hQ]
  have hthin := thin_svd hd hKM X Q1 (power_range hd X normalizer iters Q0 Q1 hinv hQ)
  generalize qrQ dec (X * Q1) * (dec.svd ((qrQ dec (X * Q1))ᵀ * X)).1 = U at *
  generalize dec.svd ((qrQ dec (X * Q1))ᵀ * X) = r at *
  cases flipSign with
  | false => exact ⟨U, _, _, hthin, fun h => Bool.noConfusion h, rfl⟩
  | true =>
    obtain ⟨σ, hσ, hflip, htop⟩ := PCA.flip_spec U r.2.2ᵀ hM (PCA.col_ne_zero hthin.left)
    refine ⟨U * diagonal σ, _, r.2.2 * diagonal σ, thin_signs hthin hσ, fun _ j => ?_, ?_⟩
    · obtain ⟨q, hq⟩ := htop j
      refine ⟨q, ?_⟩
      simp only [mul_diagonal]
      exact hq
    · rw [if_pos rfl, hflip, Res.bind_ok]
      dsimp only
      congr 3
      ext i j
      rw [of_apply, of_apply, diagonal_mul, mul_diagonal, transpose_apply, mul_comm]

/-- The mean of squares minus the square of the mean is the mean square deviation. -/
theorem varCols_eq {n d : Nat} (hn : 0 < n) (X : Matrix (Fin n) (Fin d) ℝ) (j : Fin d) :
    varCols X j = (∑ i, (centred X i j) ^ 2) / (n : ℝ) := by
  have hn' : (n : ℝ) ≠ 0 := by exact_mod_cast hn.ne'
  have h1 : ∑ i, (centred X i j) ^ 2 = ∑ i, X i j ^ 2 - 2 * columnMean X j * ∑ i, X i j + n * columnMean X j ^ 2 := by
    have : ∀ i, (centred X i j) ^ 2 = X i j ^ 2 - 2 * columnMean X j * X i j + columnMean X j ^ 2 := by
      intro i
      simp only [centred, of_apply]
      ring
    simp only [this, Finset.sum_add_distrib, Finset.sum_sub_distrib, ← Finset.mul_sum, Finset.sum_const, Finset.card_univ,
      Fintype.card_fin, nsmul_eq_mul]
  rw [h1]
  unfold varCols columnMean
  field_simp
  ring

theorem centred_mul {n d k : Nat} (X : Matrix (Fin n) (Fin d) ℝ) (A : Matrix (Fin d) (Fin k) ℝ) : centred (X * A) = centred X * A := by
  ext i j
  simp only [centred, columnMean, of_apply, mul_apply, sub_mul, Finset.sum_sub_distrib]
  congr 1
  rw [Finset.sum_comm, Finset.sum_div]
  refine Finset.sum_congr rfl fun q _ => ?_
  rw [← Finset.sum_mul]
  ring

/-- The sum of the squares of the entries. -/
theorem sum_sq_eq_trace {m n : Nat} (A : Matrix (Fin m) (Fin n) ℝ) : ∑ j, ∑ i, A i j ^ 2 = (Aᵀ * A).trace := by
  simp only [trace, diag_apply, mul_apply, transpose_apply, sq]

/-- Projecting on orthonormal vectors does not increase the sum of squares. -/
theorem proj_sum_sq {m d k : Nat} (A : Matrix (Fin m) (Fin d) ℝ) {C : Matrix (Fin k) (Fin d) ℝ} (hC : C * Cᵀ = 1) :
    ∑ j, ∑ i, (A * Cᵀ) i j ^ 2 ≤ ∑ j, ∑ i, A i j ^ 2 ∧ (k = d → ∑ j, ∑ i, (A * Cᵀ) i j ^ 2 = ∑ j, ∑ i, A i j ^ 2) := by
  constructor
  · rw [Finset.sum_comm, Finset.sum_comm (f := fun j i => A i j ^ 2)]
    refine Finset.sum_le_sum fun i _ => ?_
    have := PCA.bessel (V := Cᵀ) (by rw [transpose_transpose]; exact hC) (A i)
    rw [transpose_transpose] at this
    have h1 : ∀ j, (A * Cᵀ) i j = (C *ᵥ A i) j := by
      intro j
      simp only [mul_apply, mulVec, dotProduct, transpose_apply]
      exact Finset.sum_congr rfl fun q _ => mul_comm _ _
    simp only [h1]
    refine this.trans (le_of_eq ?_)
    simp only [dotProduct, sq]
  · intro hk
    subst hk
    rw [sum_sq_eq_trace, sum_sq_eq_trace, transpose_mul, transpose_transpose, trace_mul_comm]
    have h1 : Cᵀ * C = 1 := mul_eq_one_comm.mp hC
    calc (A * Cᵀ * (C * Aᵀ)).trace = (A * (Cᵀ * C) * Aᵀ).trace := by simp only [Matrix.mul_assoc]
      _ = (A * Aᵀ).trace := by rw [h1, Matrix.mul_one]
      _ = _ := trace_mul_comm _ _

end TruncatedSVD

section
variable {M N : Nat} {dec : Decompositions} (hd : dec.Correct) (X : Matrix (Fin M) (Fin N) ℝ) (k p iters : Nat) (normalizer : String)
  (Q0 : Matrix (Fin N) (Fin (k + p)) ℝ)
include hd

/-- C60: whether `TruncatedSVD::fit` succeeds depends on sizes and names only: it throws if the number of random vectors exceeds a dimension
of the data or if a power iteration meets an unknown normalizer, it succeeds if the number of random vectors is the number of features,
and in all other cases it multiplies matrices that do not fit. -/
theorem C60_shapes (hM : 0 < M) (hN : 0 < N) :
    (k + p > min M N → TruncatedSVD.fit dec "randomized" X k p iters normalizer Q0 = .throw .invalidArgument) ∧
    (0 < iters → normalizer ∉ ["None", "LU", "QR"] →
      TruncatedSVD.fit dec "randomized" X k p iters normalizer Q0 = .throw .invalidArgument) ∧
    (iters = 0 ∨ normalizer ∈ ["None", "LU", "QR"] → k + p ≤ min M N →
      (k + p = N → ∃ f, TruncatedSVD.fit dec "randomized" X k p iters normalizer Q0 = .ok (some f)) ∧
      (k + p ≠ N → TruncatedSVD.fit dec "randomized" X k p iters normalizer Q0 = .ub)) := by
  have hknown : normalizer ∈ ["None", "LU", "QR"] ↔ Known normalizer := by simp [Known]
  refine ⟨fun h => ?_, fun hi hn => ?_, fun hi hle => ?_⟩
  · unfold TruncatedSVD.fit randomizedSvd
    rw [if_pos rfl, dif_pos h]
    rfl
  · unfold TruncatedSVD.fit randomizedSvd
    rw [if_pos rfl]
    split
    · rfl
    · obtain ⟨i, rfl⟩ : ∃ i, iters = i + 1 := ⟨iters - 1, by omega⟩
      rw [power_unknown dec X (fun h => hn (hknown.mpr h))]
      rfl
  · obtain ⟨Q1, hQ1⟩ : ∃ Q1, power dec X normalizer iters Q0 = .ok Q1 := by
      rcases hi with rfl | hi
      · exact ⟨Q0, rfl⟩
      · exact power_known dec X (hknown.mp hi) iters Q0
    unfold TruncatedSVD.fit
    rw [if_pos rfl, randomizedSvd_eq dec X k p iters normalizer true Q0 Q1 hle hQ1, if_pos rfl]
    refine ⟨fun h => ?_, fun h => ?_⟩
    · subst h
      have ho := qrQ_orth hd (by omega : k + p ≤ M) (X * Q1)
      have hs := hd.svd ((qrQ dec (X * Q1))ᵀ * X)
      obtain ⟨σ, -, hflip, -⟩ := PCA.flip_spec (qrQ dec (X * Q1) * (dec.svd ((qrQ dec (X * Q1))ᵀ * X)).1)
        (dec.svd ((qrQ dec (X * Q1))ᵀ * X)).2.2ᵀ hM (PCA.col_ne_zero (by
          rw [transpose_mul, Matrix.mul_assoc, ← Matrix.mul_assoc _ (qrQ dec (X * Q1)), ho, Matrix.one_mul, hs.left]))
      rw [hflip, Res.bind_ok, Res.bind_ok]
      exact ⟨_, rfl⟩
    · rw [PCA.flip_mismatch _ _ hM hN (fun he => h he.symm)]
      rfl

/-- C88: for every random matrix, a result of `randomized_svd` consists of orthonormal left and right vectors and non-negative
values in decreasing order, and each left vector is mapped by the transposed data to the value times the right vector. -/
theorem C88_left_vectors (hM : 0 < M) (flipSign : Bool) (U : Matrix (Fin M) (Fin k) ℝ) (s : Fin k → ℝ) (Vt : Matrix (Fin k) (Fin N) ℝ)
    (h : randomizedSvd dec X k p iters normalizer flipSign Q0 = .ok (U, s, Vt)) :
    Uᵀ * U = 1 ∧ Vt * Vtᵀ = 1 ∧ (∀ i, 0 ≤ s i) ∧ Antitone s ∧ Uᵀ * X = diagonal s * Vt := by
  have hle : k + p ≤ min M N := by
    by_contra hc
    unfold randomizedSvd at h
    rw [dif_pos (by omega)] at h
    cases h
  obtain ⟨Q1, hQ1⟩ : ∃ Q1, power dec X normalizer iters Q0 = .ok Q1 := by
    unfold randomizedSvd at h
    rw [dif_neg (by omega), Res.bind_eq_ok] at h
    obtain ⟨Q1, hQ1, -⟩ := h
    exact ⟨Q1, hQ1⟩
  rw [randomizedSvd_eq dec X k p iters normalizer flipSign Q0 Q1 hle hQ1] at h
  have hs := hd.svd ((qrQ dec (X * Q1))ᵀ * X)
  have ho := qrQ_orth hd (by omega : k + p ≤ M) (X * Q1)
  generalize qrQ dec (X * Q1) = W at *
  have hUU : (W * (dec.svd (Wᵀ * X)).1)ᵀ * (W * (dec.svd (Wᵀ * X)).1) = 1 := by
    rw [transpose_mul, Matrix.mul_assoc, ← Matrix.mul_assoc _ W, ho, Matrix.one_mul, hs.left]
  have hrel : (W * (dec.svd (Wᵀ * X)).1)ᵀ * X =
      (Matrix.of fun (i : Fin (k + p)) (j : Fin N) => if i.val = j.val then (dec.svd (Wᵀ * X)).2.1 i.val else 0) * (dec.svd (Wᵀ * X)).2.2ᵀ := by
    have h1 : (dec.svd (Wᵀ * X)).1ᵀ * (Wᵀ * X) = (dec.svd (Wᵀ * X)).1ᵀ * ((dec.svd (Wᵀ * X)).1 * (Matrix.of fun (i : Fin (k + p)) (j : Fin N) =>
        if i.val = j.val then (dec.svd (Wᵀ * X)).2.1 i.val else 0) * (dec.svd (Wᵀ * X)).2.2ᵀ) :=
      congrArg _ hs.product
    rw [transpose_mul, Matrix.mul_assoc, h1, ← Matrix.mul_assoc, ← Matrix.mul_assoc, hs.left, Matrix.one_mul]
  generalize dec.svd (Wᵀ * X) = r at *
  generalize W * r.1 = A at *
  have hent : ∀ (i : Fin (k + p)) (j : Fin N), (Aᵀ * X) i j = r.2.1 i.val * r.2.2 j (Fin.castLE (by omega) i) := by
    intro i j
    rw [hrel, mul_apply, Finset.sum_eq_single (Fin.castLE (by omega) i)]
    · rw [of_apply, if_pos (Fin.val_castLE _ _).symm, transpose_apply]
    · intro q _ hq
      rw [of_apply, if_neg (fun he : i.val = q.val => hq (Fin.ext he.symm)), zero_mul]
    · simp
  have hnn : ∀ i : Fin k, 0 ≤ r.2.1 i.val := fun i => hs.nonneg _ (by have := i.2; omega) (by have := i.2; omega)
  have hanti : Antitone fun i : Fin k => r.2.1 i.val := fun i j hij => hs.sorted _ _ hij (by have := j.2; omega) (by have := j.2; omega)
  have hVV : ∀ hk : k ≤ N, (Matrix.of fun (i : Fin k) j => r.2.2ᵀ (Fin.castLE hk i) j) *
      (Matrix.of fun (i : Fin k) j => r.2.2ᵀ (Fin.castLE hk i) j)ᵀ = 1 := fun hk => cols_orth hs.right hk
  cases flipSign with
  | false =>
    rw [if_neg Bool.false_ne_true, Res.bind_ok] at h
    cases h
    refine ⟨cols_orth hUU _, hVV _, hnn, hanti, ?_⟩
    ext i j
    rw [diagonal_mul]
    exact hent (Fin.castLE (Nat.le_add_right k p) i) j
  | true =>
    rw [if_pos rfl] at h
    by_cases hN : k + p = N
    · subst hN
      obtain ⟨σ, hσ, hflip, -⟩ := PCA.flip_spec A r.2.2ᵀ hM (PCA.col_ne_zero hUU)
      rw [hflip, Res.bind_ok] at h
      cases h
      have hsq := sign_sq hσ
      refine ⟨?_, ?_, hnn, hanti, ?_⟩
      · refine cols_orth (U := A * diagonal σ) ?_ _
        calc (A * diagonal σ)ᵀ * (A * diagonal σ) = diagonal σ * (Aᵀ * A) * diagonal σ := by
              rw [transpose_mul, diagonal_transpose]; simp only [Matrix.mul_assoc]
          _ = 1 := by rw [hUU, Matrix.mul_one, hsq]
      · have h1 := cols_orth (U := r.2.2 * diagonal σ) (k := k) (by
          calc (r.2.2 * diagonal σ)ᵀ * (r.2.2 * diagonal σ) = diagonal σ * (r.2.2ᵀ * r.2.2) * diagonal σ := by
                rw [transpose_mul, diagonal_transpose]; simp only [Matrix.mul_assoc]
            _ = 1 := by rw [hs.right, Matrix.mul_one, hsq]) (Nat.le_add_right k p)
        have h2 : (Matrix.of fun (i : Fin k) j => (diagonal σ * r.2.2ᵀ) (Fin.castLE (Nat.le_add_right k p) i) j) =
            (Matrix.of fun i (j : Fin k) => (r.2.2 * diagonal σ) i (Fin.castLE (Nat.le_add_right k p) j))ᵀ := by
          ext i j
          rw [of_apply, transpose_apply, of_apply, diagonal_mul, mul_diagonal, transpose_apply, mul_comm]
        dsimp only
        rw [h2, transpose_transpose]
        exact h1
      · ext i j
        rw [diagonal_mul, of_apply]
        dsimp only
        rw [diagonal_mul, transpose_apply]
        have h3 := hent (Fin.castLE (Nat.le_add_right k p) i) j
        rw [mul_apply] at h3 ⊢
        simp only [transpose_apply, of_apply, mul_diagonal] at h3 ⊢
        have h4 : ∀ q, A q (Fin.castLE (Nat.le_add_right k p) i) * σ (Fin.castLE (Nat.le_add_right k p) i) * X q j =
            σ (Fin.castLE (Nat.le_add_right k p) i) * (A q (Fin.castLE (Nat.le_add_right k p) i) * X q j) := fun q => by ring
        simp only [h4]
        rw [← Finset.mul_sum, h3]
        simp only [Fin.val_castLE]
        rw [mul_left_comm]
        rfl
    · rw [PCA.flip_mismatch _ _ hM (by
        rcases Nat.eq_zero_or_pos N with h0 | h0
        · omega
        · exact h0) (fun he => hN he.symm)] at h
      cases h

end

section
variable {M k p : Nat} {dec : Decompositions} (hd : dec.Correct) (X : Matrix (Fin M) (Fin (k + p)) ℝ) (iters : Nat) (normalizer : String)
  (Q0 : Matrix (Fin (k + p)) (Fin (k + p)) ℝ)
include hd

/-- C87: if there are as many random vectors as features, at least as many samples, and either a normalized power iteration or an invertible
random matrix, then `randomized_svd` returns the leading part of an exact singular value decomposition of the data; with the default
flag the first entry of largest absolute value of each left vector is positive. -/
theorem C87_exact (hM : 0 < M) (hKM : k + p ≤ M) (hn : iters = 0 ∨ normalizer ∈ ["None", "LU", "QR"])
    (hinv : (0 < iters ∧ normalizer ≠ "None") ∨ IsUnit Q0.det) (flipSign : Bool) :
    ∃ (U : Matrix (Fin M) (Fin (k + p)) ℝ) (s : Fin (k + p) → ℝ) (V : Matrix (Fin (k + p)) (Fin (k + p)) ℝ), IsThinSVD X U s V ∧
      (flipSign = true → ∀ j, ∃ q, 0 < U q j ∧ ∀ i, |U i j| ≤ U q j ∧ (|U i j| = U q j → q ≤ i)) ∧
      randomizedSvd dec X k p iters normalizer flipSign Q0 =
        .ok (Matrix.of fun i j => U i (Fin.castLE (Nat.le_add_right k p) j), fun i => s (Fin.castLE (Nat.le_add_right k p) i),
          Matrix.of fun i j => V j (Fin.castLE (Nat.le_add_right k p) i)) := by
  obtain ⟨Q1, hQ1⟩ : ∃ Q1, power dec X normalizer iters Q0 = .ok Q1 := by
    rcases hn with rfl | hn
    · exact ⟨Q0, rfl⟩
    · exact power_known dec X (by simpa [Known] using hn) iters Q0
  exact TruncatedSVD.exact hd X iters normalizer flipSign Q0 Q1 hM hKM hQ1 hinv

/-- C87: under the same conditions the components of a fitted `TruncatedSVD` are orthonormal; the length of the image of component `i` is
the singular value `i`, and no unit vector orthogonal to the earlier components has a longer image; the transformed training data times the
components differ from the data by the part of the squared length that the singular values do not account for; the explained variances are
the mean square deviations of the transformed data, their ratios to the variance of all features have a sum of at most one, and of one if
there is no oversampling. -/
theorem C87_components (hM : 0 < M) (hKM : k + p ≤ M) (hn : iters = 0 ∨ normalizer ∈ ["None", "LU", "QR"])
    (hinv : (0 < iters ∧ normalizer ≠ "None") ∨ IsUnit Q0.det) :
    ∃ f T, TruncatedSVD.fit dec "randomized" X k p iters normalizer Q0 = .ok (some f) ∧ TruncatedSVD.transform (some f) X = .ok T ∧
      f.components * f.componentsᵀ = 1 ∧
      (∀ i, f.singular i = Real.sqrt ((X *ᵥ f.components i) ⬝ᵥ (X *ᵥ f.components i))) ∧
      (∀ i v, v ⬝ᵥ v = 1 → (∀ j < i, f.components j ⬝ᵥ v = 0) → Real.sqrt ((X *ᵥ v) ⬝ᵥ (X *ᵥ v)) ≤ f.singular i) ∧
      (∑ j, ∑ i, (X - T * f.components) i j ^ 2 = ∑ j, ∑ i, X i j ^ 2 - ∑ i, f.singular i ^ 2) ∧
      (∀ i, f.explained i = (∑ a, (T a i - columnMean T i) ^ 2) / M) ∧
      (∀ r, f.ratio = some r → ∑ i, r i ≤ 1 ∧ (p = 0 → ∑ i, r i = 1)) ∧
      (f.ratio = none ↔ ∀ a b j, X a j = X b j) := by
  obtain ⟨U, s, V, hthin, -, heq⟩ := C87_exact hd X iters normalizer Q0 hM hKM hn hinv true
  set C : Matrix (Fin k) (Fin (k + p)) ℝ := Matrix.of fun i j => V j (Fin.castLE (Nat.le_add_right k p) i) with hC
  have hCC : C * Cᵀ = 1 := cols_orth hthin.right (Nat.le_add_right k p)
  have hXV : X * V = U * diagonal s := by
    conv_lhs => rw [hthin.product]
    rw [Matrix.mul_assoc, hthin.right, Matrix.mul_one]
  have himg : ∀ i : Fin k, (X *ᵥ C i) ⬝ᵥ (X *ᵥ C i) = s (Fin.castLE (Nat.le_add_right k p) i) ^ 2 := by
    intro i
    have h1 : X *ᵥ C i = s (Fin.castLE (Nat.le_add_right k p) i) • Uᵀ (Fin.castLE (Nat.le_add_right k p) i) := by
      funext a
      have := congrFun (congrFun hXV a) (Fin.castLE (Nat.le_add_right k p) i)
      rw [mul_diagonal, mul_apply] at this
      simp only [mulVec, dotProduct, Pi.smul_apply, smul_eq_mul, transpose_apply, hC, of_apply]
      rw [this, mul_comm]
    rw [h1, smul_dotProduct, dotProduct_smul]
    have h2 := congrFun (congrFun hthin.left (Fin.castLE (Nat.le_add_right k p) i)) (Fin.castLE (Nat.le_add_right k p) i)
    rw [mul_apply, one_apply_eq] at h2
    have h3 : Uᵀ (Fin.castLE (Nat.le_add_right k p) i) ⬝ᵥ Uᵀ (Fin.castLE (Nat.le_add_right k p) i) = 1 := h2
    rw [h3]
    simp only [smul_eq_mul]
    ring
  refine ⟨⟨C, fun i => s (Fin.castLE (Nat.le_add_right k p) i), varCols (X * Cᵀ),
    if ∑ j, varCols X j = 0 then none else some fun i => varCols (X * Cᵀ) i / ∑ j, varCols X j⟩, X * Cᵀ, ?_, rfl, hCC, ?_, ?_, ?_, ?_, ?_, ?_⟩
  · unfold TruncatedSVD.fit
    rw [if_pos rfl, heq, Res.bind_ok]
  · intro i
    dsimp only
    rw [himg, Real.sqrt_sq (hthin.nonneg _)]
  · intro i v hv hort
    dsimp only at hort ⊢
    rw [Real.sqrt_le_left (hthin.nonneg _)]
    refine thin_max hthin _ v hv fun j hj => ?_
    have hjk : j.val < k := lt_trans (show j.val < i.val from hj) i.2
    exact hort ⟨j.val, hjk⟩ hj
  · dsimp only
    have h1 : ∑ i, s (Fin.castLE (Nat.le_add_right k p) i) ^ 2 = ∑ j, ∑ i, (X * Cᵀ) i j ^ 2 := by
      refine Finset.sum_congr rfl fun i _ => ?_
      rw [← himg]
      simp only [dotProduct, sq]
      rfl
    rw [h1, sum_sq_eq_trace, sum_sq_eq_trace, sum_sq_eq_trace]
    have h2 : (X - X * Cᵀ * C)ᵀ * (X - X * Cᵀ * C) =
        Xᵀ * X - Xᵀ * X * (Cᵀ * C) - (Cᵀ * C) * (Xᵀ * X) + (Cᵀ * C) * (Xᵀ * X) * (Cᵀ * C) := by
      rw [transpose_sub, Matrix.sub_mul, Matrix.mul_sub, Matrix.mul_sub]
      simp only [transpose_mul, transpose_transpose, Matrix.mul_assoc]
      abel
    have h3 : ((Cᵀ * C) * (Xᵀ * X) * (Cᵀ * C)).trace = (Xᵀ * X * (Cᵀ * C)).trace := by
      rw [Matrix.mul_assoc, trace_mul_comm]
      calc ((Xᵀ * X) * (Cᵀ * C) * (Cᵀ * C)).trace = ((Xᵀ * X) * (Cᵀ * (C * Cᵀ) * C)).trace := by simp only [Matrix.mul_assoc]
        _ = _ := by rw [hCC, Matrix.mul_one]
    have h4 : ((X * Cᵀ)ᵀ * (X * Cᵀ)).trace = (Xᵀ * X * (Cᵀ * C)).trace := by
      rw [transpose_mul, transpose_transpose]
      calc (C * Xᵀ * (X * Cᵀ)).trace = (C * (Xᵀ * X * Cᵀ)).trace := by simp only [Matrix.mul_assoc]
        _ = (Xᵀ * X * Cᵀ * C).trace := trace_mul_comm _ _
        _ = _ := by simp only [Matrix.mul_assoc]
    rw [h2, trace_add, trace_sub, trace_sub, h3, h4, trace_mul_comm (Cᵀ * C) (Xᵀ * X)]
    ring
  · intro i
    dsimp only
    rw [varCols_eq hM]
    rfl
  · intro r hr
    dsimp only at hr
    split at hr
    · cases hr
    · rename_i hne
      cases hr
      have hsum : ∀ {a : Nat} (Y : Matrix (Fin M) (Fin a) ℝ), ∑ j, varCols Y j = (∑ j, ∑ i, centred Y i j ^ 2) / (M : ℝ) := by
        intro a Y
        simp only [varCols_eq hM]
        rw [Finset.sum_div]
      have hMpos : (0 : ℝ) < M := by exact_mod_cast hM
      have hnn : 0 ≤ ∑ j, varCols X j := by
        rw [hsum]
        exact div_nonneg (Finset.sum_nonneg fun j _ => Finset.sum_nonneg fun i _ => sq_nonneg _) hMpos.le
      have hpos : 0 < ∑ j, varCols X j := lt_of_le_of_ne hnn (Ne.symm hne)
      rw [← Finset.sum_div]
      have hproj := proj_sum_sq (centred X) hCC
      rw [← centred_mul] at hproj
      constructor
      · rw [div_le_one hpos, hsum, hsum]
        exact div_le_div_of_nonneg_right hproj.1 hMpos.le
      · intro hp
        rw [div_eq_one_iff_eq hne, hsum, hsum, hproj.2 (by omega)]
  · dsimp only
    have hMpos : (0 : ℝ) < M := by exact_mod_cast hM
    have hnn : ∀ j, 0 ≤ varCols X j := by
      intro j
      rw [varCols_eq hM]
      exact div_nonneg (Finset.sum_nonneg fun i _ => sq_nonneg _) hMpos.le
    constructor
    · intro h a b j
      split at h
      · rename_i h0
        have h1 := (Finset.sum_eq_zero_iff_of_nonneg fun j _ => hnn j).mp h0 j (Finset.mem_univ j)
        rw [varCols_eq hM, div_eq_zero_iff, or_iff_left hMpos.ne'] at h1
        have h2 : ∀ i, X i j = columnMean X j := by
          intro i
          have := (Finset.sum_eq_zero_iff_of_nonneg fun i _ => sq_nonneg _).mp h1 i (Finset.mem_univ i)
          have := pow_eq_zero_iff (two_ne_zero) |>.mp this
          simp only [centred, of_apply] at this
          linarith
        rw [h2 a, h2 b]
      · cases h
    · intro h
      rw [if_pos]
      refine Finset.sum_eq_zero fun j _ => ?_
      rw [varCols_eq hM, div_eq_zero_iff]
      left
      refine Finset.sum_eq_zero fun i _ => ?_
      have : columnMean X j = X i j := by
        unfold columnMean
        rw [Finset.sum_congr rfl (fun q _ => h q i j), Finset.sum_const, Finset.card_univ, Fintype.card_fin, nsmul_eq_mul]
        field_simp
      simp only [centred, of_apply, this, sub_self]
      norm_num

end

/-- The hypotheses of C60, C87 and C88 can be fulfilled: correct decompositions exist, for example for three samples with two features, one
component, one additional random vector and four normalized iterations. -/
example : ∃ dec : Decompositions, dec.Correct ∧ 0 < 3 ∧ 1 + 1 ≤ 3 ∧ "LU" ∈ ["None", "LU", "QR"] ∧ (0 < 4 ∧ "LU" ≠ "None") ∧
    ∃ f, TruncatedSVD.fit dec "randomized" (!![1, 2; 3, 4; 5, 7] : Matrix (Fin 3) (Fin 2) ℝ) 1 1 4 "LU" 0 = .ok (some f) := by
  obtain ⟨dec, hd⟩ := exists_correct
  exact ⟨dec, hd, by norm_num, by norm_num, by simp, ⟨by norm_num, by decide⟩,
    ((C60_shapes hd !![1, 2; 3, 4; 5, 7] 1 1 4 "LU" 0 (by norm_num) (by norm_num)).2.2 (Or.inr (by simp)) (by decide)).1 rfl⟩

/-- C60: with an unknown solver name fitting succeeds silently, and the first use fails. -/
theorem C60_unknown_solver {M N m : Nat} (dec : Decompositions) (solver : String) (hs : solver ≠ "randomized") (X : Matrix (Fin M) (Fin N) ℝ)
    (k p iters : Nat) (normalizer : String) (Q0 : Matrix (Fin N) (Fin (k + p)) ℝ) (Y : Matrix (Fin m) (Fin N) ℝ) :
    ∃ f, TruncatedSVD.fit dec solver X k p iters normalizer Q0 = .ok f ∧ TruncatedSVD.transform f Y = .ub := by
  unfold TruncatedSVD.fit
  rw [if_neg hs]
  exact ⟨none, rfl, rfl⟩

/-- Example for the unknown solver. -/
example : "svd" ≠ "randomized" := by decide

end OpenML
