import Verif.Spec.Reduced
import Verif.Spec.LowRank
import Verif.Lemmas.KMeans

/-!
# Lemmas: orthogonal projection of points and centroids
-/

namespace OpenML.Reduced

open Matrix Spec KMeans

variable {n d k : Nat}

theorem sqDist_ofFn (a b : Fin d → ℝ) : sqDist (List.ofFn a) (List.ofFn b) = (a - b) ⬝ᵥ (a - b) := by
  rw [sqDist_coord d _ _ (by simp) (by simp), ← Fin.sum_univ_eq_sum_range (fun i => ((List.ofFn a).getD i 0 - (List.ofFn b).getD i 0) ^ 2) d]
  refine Finset.sum_congr rfl fun i _ => ?_
  simp [pow_two]

theorem exists_ofFn (c : List ℝ) (h : c.length = d) : ∃ v : Fin d → ℝ, c = List.ofFn v :=
  ⟨fun i => c[i]'(by omega), by subst h; exact (List.ofFn_getElem).symm⟩

theorem backTo_ofFn (μ : Fin d → ℝ) (C : Matrix (Fin k) (Fin d) ℝ) (v : Fin k → ℝ) :
    backTo μ C (List.ofFn v) = List.ofFn (μ + v ᵥ* C) := by
  unfold backTo
  congr 1
  funext j
  simp [vecMul, dotProduct]

/-- Pythagoras for the projection onto the span of orthonormal rows. -/
theorem pythagoras (C : Matrix (Fin k) (Fin d) ℝ) (hC : C * Cᵀ = 1) (y : Fin d → ℝ) (v : Fin k → ℝ) :
    (y - v ᵥ* C) ⬝ᵥ (y - v ᵥ* C) = (C *ᵥ y - v) ⬝ᵥ (C *ᵥ y - v) + (y - (C *ᵥ y) ᵥ* C) ⬝ᵥ (y - (C *ᵥ y) ᵥ* C) := by
  have h1 : ∀ w u : Fin k → ℝ, (w ᵥ* C) ⬝ᵥ (u ᵥ* C) = w ⬝ᵥ u := by
    intro w u
    rw [← dotProduct_mulVec, ← vecMul_transpose, vecMul_vecMul, ← transpose_transpose C, ← transpose_mul, transpose_transpose]
    simp [hC]
  have h2 : ∀ u : Fin k → ℝ, y ⬝ᵥ (u ᵥ* C) = (C *ᵥ y) ⬝ᵥ u := by
    intro u
    rw [dotProduct_comm, ← dotProduct_mulVec, dotProduct_comm]
  have h3 : ∀ u : Fin k → ℝ, (u ᵥ* C) ⬝ᵥ y = (C *ᵥ y) ⬝ᵥ u := fun u => by rw [dotProduct_comm, h2]
  simp only [sub_dotProduct, dotProduct_sub, h1, h2, h3]
  rw [dotProduct_comm v (C *ᵥ y)]
  ring

/-- The transformed row, as a list. -/
theorem sqDist_backTo (μ : Fin d → ℝ) (C : Matrix (Fin k) (Fin d) ℝ) (hC : C * Cᵀ = 1) (x : Fin d → ℝ) (c : List ℝ) (hc : c.length = k) :
    sqDist (List.ofFn x) (backTo μ C c) = sqDist (List.ofFn (C *ᵥ (x - μ))) c +
      sqDist (List.ofFn x) (backTo μ C (List.ofFn (C *ᵥ (x - μ)))) := by
  obtain ⟨v, rfl⟩ := exists_ofFn c hc
  rw [backTo_ofFn, backTo_ofFn, sqDist_ofFn, sqDist_ofFn, sqDist_ofFn, ← sub_sub, ← sub_sub, pythagoras C hC (x - μ) v]

theorem proj_le (C : Matrix (Fin k) (Fin d) ℝ) (hC : C * Cᵀ = 1) (y : Fin d → ℝ) : (C *ᵥ y) ⬝ᵥ (C *ᵥ y) ≤ y ⬝ᵥ y := by
  have h := pythagoras C hC y 0
  simp only [zero_vecMul, sub_zero] at h
  rw [h]
  refine le_add_of_nonneg_right (Finset.sum_nonneg fun i _ => mul_self_nonneg _)

theorem minSqDist_shift (x y : List ℝ) (ρ : ℝ) (f : List ℝ → List ℝ) (D : List (List ℝ)) (hD : D ≠ [])
    (h : ∀ c ∈ D, sqDist x (f c) = sqDist y c + ρ) : minSqDist x (D.map f) = minSqDist y D + ρ := by
  obtain ⟨⟨c, hc, h1⟩, h2⟩ := minSqDist_spec x (D.map f) (by simpa using hD)
  obtain ⟨⟨e, he, h3⟩, h4⟩ := minSqDist_spec y D hD
  obtain ⟨c', hc', rfl⟩ := List.mem_map.mp hc
  have h5 := h2 (f e) (List.mem_map_of_mem he)
  have h6 := h4 c' hc'
  have h7 := h c' hc'
  have h8 := h e he
  linarith

theorem minSqDist_mono (x y : List ℝ) (f : List ℝ → List ℝ) (D : List (List ℝ)) (hD : D ≠ [])
    (h : ∀ c ∈ D, sqDist x (f c) ≤ sqDist y c) : minSqDist x (D.map f) ≤ minSqDist y D := by
  obtain ⟨-, h2⟩ := minSqDist_spec x (D.map f) (by simpa using hD)
  obtain ⟨⟨e, he, h3⟩, -⟩ := minSqDist_spec y D hD
  rw [h3]
  exact (h2 (f e) (List.mem_map_of_mem he)).trans (h e he)

theorem inertia_rows (X : Matrix (Fin n) (Fin d) ℝ) (D : List (List ℝ)) :
    inertia (rowLists X) D = ∑ i, minSqDist (List.ofFn (X i)) D := by
  unfold inertia rowLists
  rw [List.map_ofFn, List.sum_ofFn]
  rfl

/-- The projected data and centroids: the inertia of the centroids taken back is the inertia plus the squared residuals. -/
theorem inertia_backTo (μ : Fin d → ℝ) (C : Matrix (Fin k) (Fin d) ℝ) (hC : C * Cᵀ = 1) (X : Matrix (Fin n) (Fin d) ℝ)
    (T : Matrix (Fin n) (Fin k) ℝ) (hT : ∀ i, T i = C *ᵥ (X i - μ)) (D : List (List ℝ)) (hD : D ≠ []) (hw : ∀ c ∈ D, c.length = k) :
    inertia (rowLists X) (D.map (backTo μ C)) = inertia (rowLists T) D +
      entrySquares (X - Matrix.of fun i j => μ j + (T * C) i j) := by
  rw [inertia_rows, inertia_rows, entrySquares, ← Finset.sum_add_distrib]
  refine Finset.sum_congr rfl fun i _ => ?_
  rw [hT i]
  refine minSqDist_shift _ _ _ _ D hD fun c hc => ?_
  rw [sqDist_backTo μ C hC (X i) c (hw c hc), backTo_ofFn, sqDist_ofFn (X i), ← hT i]
  congr 1
  refine Finset.sum_congr rfl fun j _ => ?_
  simp [vecMul, mul_apply, dotProduct, pow_two]

/-- Projected centroids are no worse on the projected data. -/
theorem inertia_proj (μ : Fin d → ℝ) (C : Matrix (Fin k) (Fin d) ℝ) (hC : C * Cᵀ = 1) (X : Matrix (Fin n) (Fin d) ℝ)
    (T : Matrix (Fin n) (Fin k) ℝ) (hT : ∀ i, T i = C *ᵥ (X i - μ)) (E : List (List ℝ)) (hE : E ≠ []) (hw : ∀ c ∈ E, c.length = d) :
    ∃ D : List (List ℝ), D.length = E.length ∧ (∀ c ∈ D, c.length = k) ∧ inertia (rowLists T) D ≤ inertia (rowLists X) E := by
  refine ⟨E.map fun e => List.ofFn (C *ᵥ ((fun j : Fin d => e.getD j 0) - μ)), by simp, by simp, ?_⟩
  rw [inertia_rows, inertia_rows]
  refine Finset.sum_le_sum fun i _ => minSqDist_mono _ _ _ E hE fun e he => ?_
  obtain ⟨v, rfl⟩ := exists_ofFn e (hw e he)
  have hv : (fun j : Fin d => (List.ofFn v).getD j 0) = v := by funext j; simp
  rw [hv, hT i, sqDist_ofFn, sqDist_ofFn, ← mulVec_sub, sub_sub_sub_cancel_right]
  exact proj_le C hC _

/-- Centroids as a matrix of low rank: the first centroid plus a matrix of smaller rank. -/
theorem inertia_affine (X : Matrix (Fin n) (Fin d) ℝ) (E : List (List ℝ)) (hE : E ≠ []) (hw : ∀ c ∈ E, c.length = d) :
    ∃ (c : Fin d → ℝ) (A : Matrix (Fin n) (Fin d) ℝ), A.rank ≤ E.length - 1 ∧
      entrySquares (X - Matrix.of fun i j => c j + A i j) = inertia (rowLists X) E := by
  obtain ⟨e, es, rfl⟩ := List.exists_cons_of_ne_nil hE
  have hsel : ∀ i, ∃ a : Fin (es.length + 1), minSqDist (List.ofFn (X i)) (e :: es) = sqDist (List.ofFn (X i)) (e :: es)[a] := by
    intro i
    obtain ⟨⟨c, hc, h1⟩, -⟩ := minSqDist_spec (List.ofFn (X i)) (e :: es) (by simp)
    obtain ⟨a, ha, rfl⟩ := List.mem_iff_getElem.mp hc
    exact ⟨⟨a, ha⟩, h1⟩
  choose a ha using hsel
  set v : Fin (es.length + 1) → Fin d → ℝ := fun t j => ((e :: es)[t]).getD j 0 with hv
  have hlist : ∀ t : Fin (es.length + 1), (e :: es)[t] = List.ofFn (v t) := by
    intro t
    obtain ⟨w, hw'⟩ := exists_ofFn (e :: es)[t] (hw _ (List.getElem_mem _))
    have : v t = w := by
      funext j
      simp only [hv]
      rw [hw']
      simp
    rw [this, hw']
  let P : Matrix (Fin n) (Fin es.length) ℝ := Matrix.of fun i t => if a i = t.succ then 1 else 0
  let Q : Matrix (Fin es.length) (Fin d) ℝ := Matrix.of fun t j => v t.succ j - v 0 j
  have hPQ : ∀ i j, (P * Q) i j = v (a i) j - v 0 j := by
    intro i j
    rw [mul_apply]
    simp only [P, Q, of_apply, ite_mul, one_mul, zero_mul]
    rcases Fin.eq_zero_or_eq_succ (a i) with h | ⟨t, h⟩
    · rw [h]
      rw [Finset.sum_eq_zero (fun t _ => if_neg (Fin.succ_ne_zero t).symm)]
      ring
    · rw [h]
      rw [Finset.sum_eq_single t (fun b _ hb => if_neg fun h => hb (Fin.succ_injective _ h).symm) (fun h => absurd (Finset.mem_univ t) h),
        if_pos rfl]
  refine ⟨v 0, P * Q, ?_, ?_⟩
  · refine (rank_mul_le_left _ _).trans ((rank_le_width _).trans ?_)
    simp
  · rw [inertia_rows, entrySquares]
    refine Finset.sum_congr rfl fun i _ => ?_
    rw [ha i, hlist, sqDist_ofFn]
    refine Finset.sum_congr rfl fun j _ => ?_
    simp only [Matrix.sub_apply, of_apply, hPQ, Pi.sub_apply]
    ring

/-- The same without a separate first centroid. -/
theorem inertia_linear (X : Matrix (Fin n) (Fin d) ℝ) (E : List (List ℝ)) (hE : E ≠ []) (hw : ∀ c ∈ E, c.length = d) :
    ∃ A : Matrix (Fin n) (Fin d) ℝ, A.rank ≤ E.length ∧ entrySquares (X - A) = inertia (rowLists X) E := by
  have hsel : ∀ i, ∃ a : Fin E.length, minSqDist (List.ofFn (X i)) E = sqDist (List.ofFn (X i)) E[a] := by
    intro i
    obtain ⟨⟨c, hc, h1⟩, -⟩ := minSqDist_spec (List.ofFn (X i)) E hE
    obtain ⟨a, ha, rfl⟩ := List.mem_iff_getElem.mp hc
    exact ⟨⟨a, ha⟩, h1⟩
  choose a ha using hsel
  set v : Fin E.length → Fin d → ℝ := fun t j => (E[t]).getD j 0 with hv
  have hlist : ∀ t : Fin E.length, E[t] = List.ofFn (v t) := by
    intro t
    obtain ⟨w, hw'⟩ := exists_ofFn E[t] (hw _ (List.getElem_mem _))
    have : v t = w := by
      funext j
      simp only [hv]
      rw [hw']
      simp
    rw [this, hw']
  let P : Matrix (Fin n) (Fin E.length) ℝ := Matrix.of fun i t => if a i = t then 1 else 0
  have hPQ : ∀ i j, (P * Matrix.of v) i j = v (a i) j := by
    intro i j
    rw [mul_apply]
    simp [P]
  refine ⟨P * Matrix.of v, (rank_mul_le_left _ _).trans ((rank_le_width _).trans le_rfl), ?_⟩
  rw [inertia_rows, entrySquares]
  refine Finset.sum_congr rfl fun i _ => ?_
  rw [ha i, hlist, sqDist_ofFn]
  refine Finset.sum_congr rfl fun j _ => ?_
  simp only [Matrix.sub_apply, hPQ, Pi.sub_apply]
  ring

end OpenML.Reduced
