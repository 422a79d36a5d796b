import Verif.Lemmas.KMeansSymmetry

/-!
# k-means on transformed, reordered and repeated data (C117)
-/

namespace OpenML
open Spec KMeans

namespace KMeans

theorem epsBelow_scale (s tol : ℝ) (hs : s ≠ 0) (ds ds' : List (List ℝ))
    (h : ds'.map sqNorm = ds.map fun e => s ^ 2 * sqNorm e) : epsBelow (|s| * tol) ds' = epsBelow tol ds := by
  unfold epsBelow
  rw [show (ds'.map fun d => Real.sqrt (sqNorm d)) = (ds'.map sqNorm).map Real.sqrt by rw [List.map_map]; rfl, h, List.map_map]
  have : (ds.map (Real.sqrt ∘ fun e => s ^ 2 * sqNorm e)).sum = |s| * (ds.map fun d => Real.sqrt (sqNorm d)).sum := by
    rw [← List.sum_map_mul_left]
    congr 1
    refine List.map_congr_left fun e _ => ?_
    rw [Function.comp_apply, Real.sqrt_mul (sq_nonneg s), Real.sqrt_sq_eq_abs]
  rw [this, decide_eq_decide]
  exact mul_lt_mul_iff_right₀ (abs_pos.mpr hs)

end KMeans

/-- **C117.** Cluster indices of similar data for similar centroids are the same. -/
theorem C117_predict (X : DMat ℝ) (hx : X.WF) (C : List (List ℝ)) (hw : ∀ r ∈ C, r.length = X.ncols) (s : ℝ) (hs : s ≠ 0)
    (Q : Fin X.ncols → Fin X.ncols → ℝ) (hQ : IsOrthogonal Q) (t : Fin X.ncols → ℝ) :
    predict (C.map (similar s Q t)) ⟨X.ncols, X.rows.map (similar s Q t)⟩ = predict C X :=
  predict_transform X (scales_similar s hs Q hQ t) hx C hw

/-- **C117.** Fitting similar data from similar centroids, with the tolerance scaled, gives similar centroids. -/
theorem C117_fit (checked : Bool) (tol : ℝ) (n : Nat) (X : DMat ℝ) (hx : X.WF) (hck : checked = false ∨ X.ncols = 1)
    (C : List (List ℝ)) (hC : C ≠ []) (hw : ∀ r ∈ C, r.length = X.ncols) (s : ℝ) (hs : s ≠ 0)
    (Q : Fin X.ncols → Fin X.ncols → ℝ) (hQ : IsOrthogonal Q) (t : Fin X.ncols → ℝ) :
    ∃ C', fitFrom checked (epsBelow tol) n X (.ok C) = .ok C' ∧
      fitFrom checked (epsBelow (|s| * tol)) n ⟨X.ncols, X.rows.map (similar s Q t)⟩ (.ok (C.map (similar s Q t))) =
        .ok (C'.map (similar s Q t)) := by
  obtain ⟨C', h1, -⟩ := lloyd_spec checked (epsBelow tol) n X hx hck C hC hw
  exact ⟨C', h1, lloyd_transform checked X (scales_similar s hs Q hQ t) hx hck _ _
    (fun ds ds' h => epsBelow_scale s tol hs ds ds' h) n C hC hw C' h1⟩

/-- **C117.** With the same random numbers, k-means++ on similar data selects the same samples. -/
theorem C117_plusplus (X : DMat ℝ) (hx : X.WF) (first : Nat) (draws : List (List ℝ)) (C : List (List ℝ)) (cl : List ℝ)
    (h : plusPlus first draws X = .ok (C, cl)) (s : ℝ) (hs : s ≠ 0)
    (Q : Fin X.ncols → Fin X.ncols → ℝ) (hQ : IsOrthogonal Q) (t : Fin X.ncols → ℝ) :
    plusPlus first draws ⟨X.ncols, X.rows.map (similar s Q t)⟩ = .ok (C.map (similar s Q t), cl.map (s ^ 2 * ·)) :=
  plusPlus_transform X (scales_similar s hs Q hQ t) hx first draws C cl h

/-- **C117.** The whole training, initialised by k-means++ with the same random numbers, moves with the data. -/
theorem C117_plusplus_fit (tol : ℝ) (n : Nat) (X : DMat ℝ) (hx : X.WF) (first : Nat) (hf : first < X.nrows)
    (draws : List (List ℝ)) (hd : ∀ rs ∈ draws, rs ≠ [] ∧ ∀ r ∈ rs, r ≤ 1) (s : ℝ) (hs : s ≠ 0)
    (Q : Fin X.ncols → Fin X.ncols → ℝ) (hQ : IsOrthogonal Q) (t : Fin X.ncols → ℝ) :
    ∃ C', fitFrom false (epsBelow tol) n X (do let r ← plusPlus first draws X; .ok r.1) = .ok C' ∧
      fitFrom false (epsBelow (|s| * tol)) n ⟨X.ncols, X.rows.map (similar s Q t)⟩
        (do let r ← plusPlus first draws ⟨X.ncols, X.rows.map (similar s Q t)⟩; .ok r.1) = .ok (C'.map (similar s Q t)) := by
  obtain ⟨x₀, hx₀⟩ : ∃ x₀, X.rows[first]? = some x₀ := ⟨_, List.getElem?_eq_getElem hf⟩
  obtain ⟨D, h1, -, h3⟩ := plusPlus_spec X hx first x₀ hx₀ draws hd
  have h2 := C117_plusplus X hx first draws _ _ h1 s hs Q hQ t
  have hw : ∀ r ∈ x₀ :: D, r.length = X.ncols := by
    intro c hc
    rcases List.mem_cons.mp hc with rfl | hc
    · exact hx _ (List.mem_of_getElem? hx₀)
    · obtain ⟨i, hi, rfl⟩ := List.mem_iff_getElem.mp hc
      have hlen : i < draws.length := by
        have := plusPlus_spec X hx first x₀ hx₀ draws hd
        obtain ⟨D', e1, e2, -⟩ := this
        rw [h1] at e1
        cases e1
        omega
      obtain ⟨c, g1, ⟨r, -, k, -, g2⟩, -⟩ := h3 i _ (List.getElem?_eq_getElem hlen)
      rw [List.getElem?_eq_getElem hi] at g1
      cases g1
      exact hx _ (List.mem_of_getElem? g2)
  obtain ⟨C', e1, e2⟩ := C117_fit false tol n X hx (Or.inl rfl) (x₀ :: D) (by simp) hw s hs Q hQ t
  refine ⟨C', ?_, ?_⟩
  · rw [h1]; exact e1
  · rw [h2]; exact e2

/-- **C117.** Neither the order of the samples nor repeating all of them `m` times changes the centroids fitted from given
initial centroids. -/
theorem C117_copies (checked : Bool) (tol : ℝ) (n : Nat) (X : DMat ℝ) (hx : X.WF) (hck : checked = false ∨ X.ncols = 1)
    (C : List (List ℝ)) (hC : C ≠ []) (hw : ∀ r ∈ C, r.length = X.ncols) (rows : List (List ℝ)) (m : Nat) (hm : 0 < m)
    (hp : rows.Perm (List.replicate m X.rows).flatten) :
    fitFrom checked (epsBelow tol) n ⟨X.ncols, rows⟩ (.ok C) = fitFrom checked (epsBelow tol) n X (.ok C) := by
  refine lloyd_copies checked X ⟨X.ncols, rows⟩ hx rfl m hm hp hck _ ?_ n C hC hw
  intro ds ds' h
  unfold epsBelow
  rw [show (ds'.map fun d => Real.sqrt (sqNorm d)) = (ds'.map sqNorm).map Real.sqrt by rw [List.map_map]; rfl, h, List.map_map]
  rfl

/-- A rotation by a right angle, doubled and moved: the hypotheses of the theorems above for data with two columns. -/
example : IsOrthogonal (α := ℝ) (d := 2) ![![0, -1], ![1, 0]] ∧
    similar (2 : ℚ) (d := 2) ![![0, -1], ![1, 0]] ![5, 0] [1, 3] = [-1, 2] := by
  refine ⟨?_, by decide +kernel⟩
  intro j k
  fin_cases j <;> fin_cases k <;> simp [Fin.sum_univ_two]

/-- The data of the example of `C40_fit`, so transformed: the fitted centroids are transformed in the same way. -/
example : fitFrom false (fun _ => false) 3 (⟨2, [[0, 0], [2, 0], [10, 4], [4, 1]]⟩ : DMat ℚ)
      (.ok [[1, 1], [9, 9]]) = .ok [[2, 1 / 3], [10, 4]] ∧
    fitFrom false (fun _ => false) 3 (⟨2, [[5, 0], [5, 4], [-3, 20], [3, 8]]⟩ : DMat ℚ)
      (.ok [[3, 2], [-13, 18]]) = .ok [[13 / 3, 4], [-3, 20]] := by decide +kernel

/-- k-means++ on data and its mirror image. -/
example : plusPlus 1 [[1 / 2, 1 / 4], [9 / 10]] (⟨1, [[0], [1], [5], [6]]⟩ : DMat ℚ) =
      .ok ([[1], [6], [5]], [1, 0, 0, 0]) ∧
    plusPlus 1 [[1 / 2, 1 / 4], [9 / 10]] (⟨1, [[7], [4], [-8], [-11]]⟩ : DMat ℚ) =
      .ok ([[4], [-11], [-8]], [9, 0, 0, 0]) := by decide +kernel

/-- Each sample twice, in another order. -/
example : ([[2], [9], [0], [0], [9], [2]] : List (List ℝ)).Perm (List.replicate 2 [[0], [2], [9]]).flatten ∧
    fitFrom false (fun _ => false) 2 (⟨1, [[2], [9], [0], [0], [9], [2]]⟩ : DMat ℚ) (.ok [[1], [8]]) = .ok [[1], [9]] := by
  refine ⟨?_, by decide +kernel⟩
  have : (([[2], [9], [0], [0], [9], [2]] : List (List ℕ)).map (List.map (Nat.cast : ℕ → ℝ))).Perm
      (((List.replicate 2 [[0], [2], [9]]).flatten).map (List.map (Nat.cast : ℕ → ℝ))) :=
    List.Perm.map _ (by decide)
  simpa using this

end OpenML
