import Verif.Lemmas.LogisticMinimum
import Verif.Props.Descent

/-!
# C125: minima of the mean squared error and of the log loss
-/

namespace OpenML

open Spec Loss

namespace LogisticMinimum

theorem zip_length (X : DMat ℝ) (y : List ℝ) (hy : y.length = X.nrows) : (X.rows.zip y).length = X.nrows := by
  rw [List.length_zip, hy]; exact Nat.min_self _

theorem zip_ne (X : DMat ℝ) (hn : X.rows ≠ []) (y : List ℝ) (hy : y.length = X.nrows) : X.rows.zip y ≠ [] := by
  intro h
  have := zip_length X y hy
  rw [h] at this
  exact hn (List.eq_nil_of_length_eq_zero this.symm)

theorem sum_sq {d : Nat} (g : Fin d → ℝ) : ((List.ofFn g).map (· ^ 2)).sum = ∑ j, g j ^ 2 := by
  rw [List.map_ofFn, List.sum_ofFn]
  rfl

/-- Minima with positive ridge term of any loss with convex per-sample terms. -/
theorem ridge_lists (phi dphi : ℝ → ℝ → ℝ) (hd : ∀ y s, HasDerivAt (phi y) (dphi y s) s)
    (ht : ∀ y s t, phi y s + dphi y s * (t - s) ≤ phi y t) (lambda : ℝ) (hl : 0 < lambda) (X : DMat ℝ) (hn : X.rows ≠ [])
    (y : List ℝ) (hy : y.length = X.nrows) (E : List ℝ → Res ℝ) (G : List ℝ → Res (List ℝ))
    (hE : ∀ w : Fin X.ncols → ℝ, E (List.ofFn w) = .ok (meanLoss phi (X.rows.zip y) w + lambda * ridgeTerm X.nrows w))
    (hG : ∀ w : Fin X.ncols → ℝ, G (List.ofFn w) = .ok (List.ofFn (gradOf dphi lambda (X.rows.zip y) w)))
    (hlen : ∀ w b, E w = .ok b → w.length = X.ncols) :
    ∃ w m, Minimises E w m ∧ (∀ v, Minimises E v m → v = w) ∧
      ∀ v b g, E v = .ok b → G v = .ok g →
        lambda / (2 * X.nrows) * weightDist v w ≤ b - m ∧
        b - m ≤ X.nrows / (2 * lambda) * (g.map (· ^ 2)).sum ∧
        weightDist v w ≤ (X.nrows / lambda) ^ 2 * (g.map (· ^ 2)).sum := by
  have hz := zip_length X y hy
  have hN : (0 : ℝ) < X.nrows := by exact_mod_cast List.length_pos_of_ne_nil hn
  obtain ⟨w, hw⟩ := ridge_min (d := X.ncols) phi dphi hd ht lambda hl (X.rows.zip y) (zip_ne X hn y hy)
  rw [hz] at hw
  have hmin : Minimises E (List.ofFn w) (meanLoss phi (X.rows.zip y) w + lambda * ridgeTerm X.nrows w) := by
    refine ⟨hE w, fun v b hb => ?_⟩
    obtain ⟨v, rfl⟩ := exists_ofFn v (hlen v b hb)
    rw [hE] at hb
    cases hb
    have h1 := (hw v).1
    have h2 : 0 ≤ lambda / (2 * X.nrows) * ∑ j, (v j - w j) ^ 2 :=
      mul_nonneg (by positivity) (Finset.sum_nonneg fun j _ => sq_nonneg _)
    linarith
  refine ⟨List.ofFn w, _, hmin, fun v hv => ?_, fun v b g hb hg => ?_⟩
  · obtain ⟨v, rfl⟩ := exists_ofFn v (hlen v _ hv.1)
    have h1 := hv.1
    rw [hE, Res.ok.injEq] at h1
    have h2 := (hw v).1
    rw [h1, sub_self] at h2
    have h3 : ∑ j, (v j - w j) ^ 2 ≤ 0 := by
      by_contra h
      exact absurd h2 (not_le.mpr (mul_pos (by positivity) (not_le.mp h)))
    have h4 := (Finset.sum_eq_zero_iff_of_nonneg fun j _ => sq_nonneg (v j - w j)).mp
      (le_antisymm h3 (Finset.sum_nonneg fun j _ => sq_nonneg _))
    congr 1
    funext j
    have := h4 j (Finset.mem_univ j)
    exact sub_eq_zero.mp (pow_eq_zero_iff two_ne_zero |>.mp this)
  · obtain ⟨v, rfl⟩ := exists_ofFn v (hlen v b hb)
    rw [hE] at hb
    rw [hG] at hg
    cases hb; cases hg
    rw [Descent.weightDist_ofFn, sum_sq]
    exact hw v

end LogisticMinimum

open LogisticMinimum

/-- C125: with a positive penalty, exactly one weight vector minimises `MSE::evaluate`, and for any weights the gradient
that `MSE::gradient` returns bounds how far they and their value are from the minimum. -/
theorem C125_mse (lambda : ℝ) (hl : 0 < lambda) (X : DMat ℝ) (hX : X.WF) (hn : X.rows ≠ []) (y : List ℝ) (hy : y.length = X.nrows) :
    ∃ w m, Minimises (mseEvaluate lambda X y) w m ∧ (∀ v, Minimises (mseEvaluate lambda X y) v m → v = w) ∧
      ∀ v b g, mseEvaluate lambda X y v = .ok b → mseGradient lambda X y v = .ok g →
        lambda / (2 * X.nrows) * weightDist v w ≤ b - m ∧
        b - m ≤ X.nrows / (2 * lambda) * (g.map (· ^ 2)).sum ∧
        weightDist v w ≤ (X.nrows / lambda) ^ 2 * (g.map (· ^ 2)).sum :=
  ridge_lists halfSquare (fun a s => s - a) halfSquare_deriv halfSquare_tangent lambda hl X hn y hy _ _
    (mseEvaluate_eq lambda X hX y hy) (mseGradient_eq lambda X hX y hy) fun _ _ h => evaluate_length h

/-- Two samples of one feature with penalty one: the minimum exists and weights without gradient are the minimum. -/
example : ∃ w m, Minimises (mseEvaluate 1 ⟨1, [[1], [2]]⟩ [1, 0]) w m ∧
    ∀ v b, mseEvaluate 1 ⟨1, [[1], [2]]⟩ [1, 0] v = .ok b → mseGradient 1 ⟨1, [[1], [2]]⟩ [1, 0] v = .ok [0] → b ≤ m := by
  obtain ⟨w, m, h1, _, h2⟩ := C125_mse 1 one_pos ⟨1, [[1], [2]]⟩ (by simp [DMat.WF]) (by simp) [1, 0] rfl
  refine ⟨w, m, h1, fun v b hb hg => ?_⟩
  have := (h2 v b [0] hb hg).2.1
  norm_num at this
  exact this

/-- C125: the same for `LogLoss`. -/
theorem C125_log (lambda : ℝ) (hl : 0 < lambda) (X : DMat ℝ) (hX : X.WF) (hn : X.rows ≠ []) (y : List ℝ) (hy : y.length = X.nrows) :
    ∃ w m, Minimises (logEvaluate lambda X y) w m ∧ (∀ v, Minimises (logEvaluate lambda X y) v m → v = w) ∧
      ∀ v b g, logEvaluate lambda X y v = .ok b → logGradient lambda X y v = .ok g →
        lambda / (2 * X.nrows) * weightDist v w ≤ b - m ∧
        b - m ≤ X.nrows / (2 * lambda) * (g.map (· ^ 2)).sum ∧
        weightDist v w ≤ (X.nrows / lambda) ^ 2 * (g.map (· ^ 2)).sum :=
  ridge_lists crossEntropy (fun a s => Real.sigmoid s - a) crossEntropy_deriv crossEntropy_tangent lambda hl X hn y hy _ _
    (logEvaluate_eq lambda X hX y hy) (logGradient_eq lambda X hX y hy) fun _ _ h => evaluate_length h

/-- The same for the log loss. -/
example : ∃ w m, Minimises (logEvaluate 1 ⟨1, [[1], [-1]]⟩ [1, 0]) w m ∧ ∀ v, Minimises (logEvaluate 1 ⟨1, [[1], [-1]]⟩ [1, 0]) v m → v = w := by
  obtain ⟨w, m, h1, h2, _⟩ := C125_log 1 one_pos ⟨1, [[1], [-1]]⟩ (by simp [DMat.WF]) (by simp) [1, 0] rfl
  exact ⟨w, m, h1, h2⟩

/-- C125: without penalty and with labels zero and one, `LogLoss::evaluate` has a minimum exactly if no weights separate
the classes, and exactly then `LogLoss::gradient` is zero somewhere. -/
theorem C125_overlap (X : DMat ℝ) (hX : X.WF) (hn : X.rows ≠ []) (y : List ℝ) (hy : y.length = X.nrows) (h01 : ∀ a ∈ y, a = 0 ∨ a = 1) :
    ((∃ w m, Minimises (logEvaluate 0 X y) w m) ↔ Overlap X.ncols X.rows y) ∧
      ((∃ w g, logGradient 0 X y w = .ok g ∧ ∀ a ∈ g, a = 0) ↔ Overlap X.ncols X.rows y) := by
  have hE : ∀ w : Fin X.ncols → ℝ, logEvaluate 0 X y (List.ofFn w) = .ok (meanLoss crossEntropy (X.rows.zip y) w) := by
    intro w
    rw [logEvaluate_eq 0 X hX y hy, zero_mul, add_zero]
  have hiff := exists_min_iff (d := X.ncols) X.rows y (zip_ne X hn y hy) h01
  constructor
  · rw [← hiff]
    constructor
    · rintro ⟨w, m, h1, h2⟩
      obtain ⟨w, rfl⟩ := exists_ofFn w (evaluate_length h1)
      rw [hE] at h1
      cases h1
      exact ⟨w, fun v => h2 _ _ (hE v)⟩
    · rintro ⟨w, hw⟩
      refine ⟨List.ofFn w, _, hE w, fun v b hb => ?_⟩
      obtain ⟨v, rfl⟩ := exists_ofFn v (evaluate_length hb)
      rw [hE] at hb
      cases hb
      exact hw v
  · rw [← hiff]
    constructor
    · rintro ⟨w, g, hg, h0⟩
      obtain ⟨w, rfl⟩ := exists_ofFn w (evaluate_length hg)
      refine ⟨w, fun v => ?_⟩
      exact C78_log 0 le_rfl X hX hn y hy _ _ hg h0 _ _ _ (hE w) (hE v)
    · rintro ⟨w, hw⟩
      refine ⟨List.ofFn w, _, logGradient_eq 0 X hX y hy w, fun a ha => ?_⟩
      obtain ⟨j, rfl⟩ := List.mem_ofFn.mp ha
      exact gradient_zero crossEntropy _ crossEntropy_deriv 0 (X.rows.zip y) w (by simpa using hw) j

/-- Two equal samples with different labels overlap, so their log loss has a minimum; with distinct samples of one feature
on the two sides of zero it has none. -/
example : (∃ w m, Minimises (logEvaluate 0 ⟨1, [[1], [1]]⟩ [0, 1]) w m) ∧
    ¬ ∃ w m, Minimises (logEvaluate 0 ⟨1, [[1], [-1]]⟩ [1, 0]) w m := by
  constructor
  · refine (C125_overlap ⟨1, [[1], [1]]⟩ (by simp [DMat.WF]) (by simp) [0, 1] rfl (by simp)).1.mpr fun u hu => ?_
    have h1 := (hu ([1], 0) (by simp)).2 rfl
    have h2 := (hu ([1], 1) (by simp)).1 rfl
    have h3 := le_antisymm h1 h2
    intro p hp
    simp only [List.zip_cons_cons, List.zip_nil_right, List.mem_cons, List.not_mem_nil, or_false] at hp
    rcases hp with rfl | rfl <;> exact h3
  · intro h
    have h1 := (C125_overlap ⟨1, [[1], [-1]]⟩ (by simp [DMat.WF]) (by simp) [1, 0] rfl (by simp)).1.mp h (fun _ => 1) (by
      intro p hp
      simp only [List.zip_cons_cons, List.zip_nil_right, List.mem_cons, List.not_mem_nil, or_false] at hp
      rcases hp with rfl | rfl <;> simp [score]) ([1], 1) (by simp)
    simp [score] at h1

/-- C125: weights minimise the log loss without penalty exactly if they give all samples the scores of a minimum. -/
theorem C125_scores (X : DMat ℝ) (hX : X.WF) (y : List ℝ) (hy : y.length = X.nrows) (w v : Fin X.ncols → ℝ) (m : ℝ)
    (hw : Minimises (logEvaluate 0 X y) (List.ofFn w) m) :
    Minimises (logEvaluate 0 X y) (List.ofFn v) m ↔ ∀ x ∈ X.rows, score x v = score x w := by
  have hE : ∀ w : Fin X.ncols → ℝ, logEvaluate 0 X y (List.ofFn w) = .ok (meanLoss crossEntropy (X.rows.zip y) w) := by
    intro w
    rw [logEvaluate_eq 0 X hX y hy, zero_mul, add_zero]
  obtain ⟨h1, h2⟩ := hw
  rw [hE, Res.ok.injEq] at h1
  subst h1
  have h3 := min_scores (X.rows.zip y) v w fun u => h2 _ _ (hE u)
  have h4 : (∀ p ∈ X.rows.zip y, score p.1 v = score p.1 w) ↔ ∀ x ∈ X.rows, score x v = score x w := by
    have : (X.rows.zip y).map Prod.fst = X.rows := List.map_fst_zip (by rw [hy]; exact le_refl _)
    constructor
    · intro h x hx
      rw [← this] at hx
      obtain ⟨p, hp, rfl⟩ := List.mem_map.mp hx
      exact h p hp
    · exact fun h p hp => h p.1 (List.of_mem_zip hp).1
  rw [← h4, ← h3]
  constructor
  · rintro ⟨h5, -⟩
    rw [hE, Res.ok.injEq] at h5
    exact h5.le
  · intro h
    have h5 := le_antisymm h (h2 _ _ (hE v))
    exact ⟨by rw [hE, h5], fun u b hb => h2 u b hb⟩

/-- Two equal samples with different labels and a repeated feature: moving weight between the two features keeps a minimum. -/
example : ∃ (w : Fin 2 → ℝ) (m : ℝ), ∀ t : ℝ,
    Minimises (logEvaluate 0 ⟨2, [[1, 1], [1, 1]]⟩ [0, 1]) (List.ofFn fun j => w j + if j = 0 then t else -t) m := by
  obtain ⟨w, m, h⟩ := (C125_overlap ⟨2, [[1, 1], [1, 1]]⟩ (by simp [DMat.WF]) (by simp) [0, 1] rfl (by simp)).1.mpr (by
    intro u hu
    have h1 := (hu ([1, 1], 0) (by simp)).2 rfl
    have h2 := (hu ([1, 1], 1) (by simp)).1 rfl
    have h3 := le_antisymm h1 h2
    intro p hp
    simp only [List.zip_cons_cons, List.zip_nil_right, List.mem_cons, List.not_mem_nil, or_false] at hp
    rcases hp with rfl | rfl <;> exact h3)
  obtain ⟨w, rfl⟩ := exists_ofFn w (evaluate_length h.1)
  refine ⟨w, m, fun t => (C125_scores ⟨2, [[1, 1], [1, 1]]⟩ (by simp [DMat.WF]) [0, 1] rfl w _ m h).mpr fun x hx => ?_⟩
  have hx' : x = [1, 1] := by simpa using hx
  subst hx'
  show score [1, 1] (fun j : Fin 2 => w j + if j = 0 then t else -t) = score [1, 1] (fun j : Fin 2 => w j)
  simp [score, Fin.sum_univ_two]
  ring

end OpenML
