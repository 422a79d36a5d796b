import Verif.Lemmas.Metric

/-!
# C33: metric functions
-/

set_option linter.unusedSectionVars false

namespace OpenML
open Spec Metric

/-- C33: `euclidean_distance` is the root of the sum of squared differences, reads out of bounds when the second vector is
shorter, and is a distance on the vectors of each length. -/
theorem C33_euclidean :
    (∀ a b : List ℝ, a.length ≤ b.length →
      euclidean a b = .ok (Real.sqrt (List.zipWith (fun x y => (x - y) ^ 2) a b).sum)) ∧
    (∀ a b : List ℝ, b.length < a.length → euclidean a b = .ub) ∧
    ∀ n : Nat, IsDistanceOn (fun a : List ℝ => a.length = n) euclidean := by
  have h1 : ∀ a b : List ℝ, a.length ≤ b.length →
      euclidean a b = .ok (Real.sqrt (List.zipWith (fun x y => (x - y) ^ 2) a b).sum) := by
    intro a b h
    simp [euclidean, pairUp_eq _ a b h]
  refine ⟨h1, fun a b h => by simp [euclidean, pairUp_short _ a b h], fun n => ?_⟩
  refine distance_of_nrm _ id n (fun x h => h) (fun x y _ _ h => h) norm2 nrm2 euclidean fun x y hx hy => ?_
  rw [h1 x y (hx.trans hy.symm).le, norm2, List.map_zipWith]
  simp [sq]

example : euclidean [0, 1] [3, 5] = .ok 5 := by
  rw [C33_euclidean.1 _ _ (by simp)]
  norm_num
  rw [show (25 : ℝ) = 5 ^ 2 by norm_num, Real.sqrt_sq (by norm_num)]

/-- C33: `manhattan_distance` is the sum of absolute differences, reads out of bounds when the second vector is shorter, and
is a distance on the vectors of each length. -/
theorem C33_manhattan :
    (∀ a b : List ℝ, a.length ≤ b.length → manhattan a b = .ok (List.zipWith (fun x y => |x - y|) a b).sum) ∧
    (∀ a b : List ℝ, b.length < a.length → manhattan a b = .ub) ∧
    ∀ n : Nat, IsDistanceOn (fun a : List ℝ => a.length = n) manhattan := by
  have h1 : ∀ a b : List ℝ, a.length ≤ b.length → manhattan a b = .ok (List.zipWith (fun x y => |x - y|) a b).sum := by
    intro a b h
    simp [manhattan, pairUp_eq _ a b h]
  refine ⟨h1, fun a b h => by simp [manhattan, pairUp_short _ a b h], fun n => ?_⟩
  refine distance_of_nrm _ id n (fun x h => h) (fun x y _ _ h => h) norm1 nrm1 manhattan fun x y hx hy => ?_
  rw [h1 x y (hx.trans hy.symm).le, norm1, List.map_zipWith]
  rfl

example : manhattan [0, 1] [3, 5] = .ok 7 := by
  rw [C33_manhattan.1 _ _ (by simp)]
  norm_num

/-- C33: `minkowski_distance` throws exactly for different shapes or an exponent other than 1, 2 and the constant -1 for
infinity. -/
theorem C33_minkowski_throws (x y : DMat ℝ) (p : Int) :
    minkowski x y p = .throw .invalidArgument ↔ x.nrows ≠ y.nrows ∨ x.ncols ≠ y.ncols ∨ (p ≠ 1 ∧ p ≠ 2 ∧ p ≠ -1) := by
  unfold minkowski
  simp only [List.mem_cons, List.not_mem_nil, or_false, not_or]
  split
  · rename_i h
    simp only [true_iff]
    by_contra hc
    push Not at hc
    exact h (by rw [hc.1, hc.2.1])
  · split
    · rename_i h; simp only [true_iff]; tauto
    · rename_i h
      push Not at h
      split
      · rename_i h2; simp only [true_iff]; exact Or.inr (Or.inr h2)
      · rename_i h2
        split
        · simp; tauto
        · split
          · simp; tauto
          · simp; tauto

/-- C33: the values of `minkowski_distance` for matrices of the same shape. -/
theorem C33_minkowski_values (x y : DMat ℝ) (hr : x.nrows = y.nrows) (hc : x.ncols = y.ncols) (v : ℝ) :
    (minkowski x y 2 = .ok v ↔ v = Real.sqrt (List.zipWith (fun a b => (a - b) ^ 2) x.rows.flatten y.rows.flatten).sum) ∧
    (minkowski x y 1 = .ok v ↔ v = (List.zipWith (fun a b => |a - b|) x.rows.flatten y.rows.flatten).sum) ∧
    (minkowski x y (-1) = .ok v ↔
      0 ≤ v ∧ (∀ e ∈ List.zipWith (fun a b => |a - b|) x.rows.flatten y.rows.flatten, e ≤ v) ∧
      (v = 0 ∨ v ∈ List.zipWith (fun a b => |a - b|) x.rows.flatten y.rows.flatten)) := by
  have h2 : minkowski x y 2 = .ok (norm2 (difference x y)) := by simp [minkowski, hr, hc]
  have h1 : minkowski x y 1 = .ok (norm1 (difference x y)) := by simp [minkowski, hr, hc]
  have hi : minkowski x y (-1) = .ok (normInf (difference x y)) := by simp [minkowski, hr, hc]
  rw [h1, h2, hi]
  have habs : List.zipWith (fun a b => |a - b|) x.rows.flatten y.rows.flatten = (difference x y).map fun a => |a| := by
    rw [difference, List.map_zipWith]
  have hsq : List.zipWith (fun a b => (a - b) ^ 2) x.rows.flatten y.rows.flatten = (difference x y).map fun a => a * a := by
    rw [difference, List.map_zipWith]; simp [sq]
  rw [habs, hsq]
  refine ⟨⟨fun h => (Res.ok.inj h).symm, fun h => by rw [h]; rfl⟩, ⟨fun h => (Res.ok.inj h).symm, fun h => by rw [h]; rfl⟩, ?_⟩
  obtain ⟨s1, s2, s3⟩ := normInf_spec (difference x y)
  constructor
  · intro h
    rw [← Res.ok.inj h]
    refine ⟨s2, ?_, ?_⟩
    · intro e he
      obtain ⟨a, ha, rfl⟩ := List.mem_map.mp he
      exact s3 a ha
    · rcases s1 with s1 | ⟨a, ha, s1⟩
      · exact Or.inl s1
      · exact Or.inr (List.mem_map.mpr ⟨a, ha, s1.symm⟩)
  · rintro ⟨h0, hle, hm⟩
    congr 1
    apply le_antisymm
    · rcases s1 with s1 | ⟨a, ha, s1⟩
      · rw [s1]; exact h0
      · rw [s1]; exact hle _ (List.mem_map.mpr ⟨a, ha, rfl⟩)
    · rcases hm with rfl | hm
      · exact s2
      · obtain ⟨a, ha, rfl⟩ := List.mem_map.mp hm
        exact s3 a ha

example : minkowski ⟨2, [[0, 1]]⟩ ⟨2, [[3, 5]]⟩ (-1) = .ok 4 := by
  rw [(C33_minkowski_values ⟨2, [[0, 1]]⟩ ⟨2, [[3, 5]]⟩ rfl rfl 4).2.2]
  norm_num

/-- C33: for each of the three exponents `minkowski_distance` is a distance on the matrices of each shape. -/
theorem C33_minkowski_metric (p : Int) (hp : p = 1 ∨ p = 2 ∨ p = -1) (r c : Nat) :
    IsDistanceOn (fun x : DMat ℝ => x.WF ∧ x.nrows = r ∧ x.ncols = c) (fun x y => minkowski x y p) := by
  have hlen : ∀ x : DMat ℝ, (x.WF ∧ x.nrows = r ∧ x.ncols = c) → x.rows.flatten.length = r * c := by
    rintro x ⟨h1, rfl, rfl⟩
    exact flatten_length _ _ h1
  have hinj : ∀ x y : DMat ℝ, (x.WF ∧ x.nrows = r ∧ x.ncols = c) → (y.WF ∧ y.nrows = r ∧ y.ncols = c) →
      x.rows.flatten = y.rows.flatten → x = y := by
    rintro ⟨cx, rx⟩ ⟨cy, ry⟩ ⟨h1, h2, h3⟩ ⟨h4, h5, h6⟩ h
    simp only [DMat.WF, DMat.nrows] at *
    have := flatten_inj c rx ry (fun q hq => (h1 q hq).trans h3) (fun q hq => (h4 q hq).trans h6) (by omega) h
    rw [this, h3, h6]
  rcases hp with rfl | rfl | rfl
  · exact distance_of_nrm _ (fun x => x.rows.flatten) _ hlen hinj norm1 nrm1 _ fun x y hx hy => by
      simp [minkowski, hx.2.1, hx.2.2, hy.2.1, hy.2.2, difference]
  · exact distance_of_nrm _ (fun x => x.rows.flatten) _ hlen hinj norm2 nrm2 _ fun x y hx hy => by
      simp [minkowski, hx.2.1, hx.2.2, hy.2.1, hy.2.2, difference]
  · exact distance_of_nrm _ (fun x => x.rows.flatten) _ hlen hinj normInf nrmInf _ fun x y hx hy => by
      simp [minkowski, hx.2.1, hx.2.2, hy.2.1, hy.2.2, difference]

example : (⟨2, [[0, 1], [3, 5]]⟩ : DMat ℝ).WF ∧ (⟨2, [[0, 1], [3, 5]]⟩ : DMat ℝ).nrows = 2 :=
  ⟨by intro r hr; simp at hr; rcases hr with rfl | rfl <;> rfl, rfl⟩

/-- C33: `mean_absolute_error` returns the mean squared error; this is at least the square of the mean absolute error, and
scaling both vectors by `c` scales the result by `c ^ 2` (the mean absolute error would scale by `|c|`). -/
theorem C33_mean_absolute_error (y p : List ℝ) (h : y.length = p.length) (hn : y ≠ []) :
    meanAbsoluteError y p = .ok (some (meanSqErr y p)) ∧ meanAbsErr y p ^ 2 ≤ meanSqErr y p ∧
    ∀ c : ℝ, meanAbsoluteError (y.map (c * ·)) (p.map (c * ·)) = .ok (some (c ^ 2 * meanSqErr y p)) := by
  have hl : y.length ≠ 0 := by simpa using hn
  have key : ∀ (y p : List ℝ), y.length = p.length → y.length ≠ 0 → meanAbsoluteError y p = .ok (some (meanSqErr y p)) := by
    intro y p h h0
    rw [meanAbsoluteError, if_neg (by simpa using h), if_neg h0, meanSqErr]
    simp only [sq]
  refine ⟨key y p h hl, ?_, fun c => ?_⟩
  · have hne : List.zipWith (fun a b => |a - b|) y p ≠ [] := by
      rw [Ne, ← List.length_eq_zero_iff, List.length_zipWith]; omega
    have h1 := Stats.meanSquaredDeviation_nonneg (List.zipWith (fun a b => |a - b|) y p)
    rw [← spread_eq _ hne, spread, meanOf, meanOf, List.map_zipWith] at h1
    simp only [abs_mul_abs_self, List.length_zipWith, ← h, min_self] at h1
    rw [meanAbsErr, meanSqErr]
    simp only [sq] at h1 ⊢
    linarith
  · rw [key _ _ (by simpa using h) (by simpa using hl), meanSqErr, meanSqErr, List.zipWith_map, List.length_map]
    congr 2
    rw [← mul_div_assoc]
    congr 1
    have : List.zipWith (fun a b => (c * a - c * b) ^ 2) y p = (List.zipWith (fun a b => (a - b) ^ 2) y p).map (c ^ 2 * ·) := by
      rw [List.map_zipWith]
      congr 1
      funext a b
      ring
    rw [this, List.sum_map_mul_left, List.map_id']

example : meanAbsoluteError [1, 2] [4, 2] = .ok (some (9 / 2)) := by
  rw [(C33_mean_absolute_error [1, 2] [4, 2] rfl (by simp)).1, meanSqErr]
  norm_num

/-- C33: for targets that are not all equal, `explained_variance_score` is 1 minus the ratio of the mean squared deviations
of the errors and of the targets; it is at most 1, and 1 exactly when all errors are equal — in particular for perfect
predictions, but also for predictions off by a constant. -/
theorem C33_explained_variance (y p : List ℝ) (h : p.length = y.length) (hv : ∃ a ∈ y, ∃ b ∈ y, a ≠ b) :
    ∃ v, explainedVariance y p = .ok (some v) ∧
      v = 1 - meanSquaredDeviation (List.zipWith (· - ·) p y) / meanSquaredDeviation y ∧ v ≤ 1 ∧
      (v = 1 ↔ ∀ e ∈ List.zipWith (· - ·) p y, ∀ f ∈ List.zipWith (· - ·) p y, e = f) := by
  obtain ⟨a, ha, b, hb, hab⟩ := hv
  have hy : y ≠ [] := List.ne_nil_of_mem ha
  have hl : y.length ≠ 0 := by simpa using hy
  have hz : ∀ l : List ℝ, l ≠ [] → (meanSquaredDeviation l = 0 ↔ ∀ e ∈ l, ∀ f ∈ l, e = f) := by
    intro l hne
    have hp := Stats.length_pos_cast (α := ℝ) hne
    have hs : meanSquaredDeviation l = 0 ↔ ∀ x ∈ l, x = average l := by
      rw [meanSquaredDeviation, average, div_eq_zero_iff, or_iff_left (by simpa using hne), sum_eq_zero]
      · simp [sub_eq_zero]
      · intro x hx; obtain ⟨z, -, rfl⟩ := List.mem_map.mp hx; positivity
    rw [hs]
    constructor
    · intro h e he f hf
      rw [h e he, h f hf]
    · intro h x hx
      have : l.sum = (l.length : ℝ) * x := by
        rw [List.sum_eq_card_nsmul l x fun f hf => h f hf x hx, nsmul_eq_mul]
      rw [average, this]
      field_simp
  have hd : List.zipWith (· - ·) p y ≠ [] := by
    rw [Ne, ← List.length_eq_zero_iff, List.length_zipWith]; omega
  have hpos : 0 < meanSquaredDeviation y := by
    refine lt_of_le_of_ne (Stats.meanSquaredDeviation_nonneg y) fun h0 => hab ?_
    exact (hz y hy).mp h0.symm a ha b hb
  have hd0 := Stats.meanSquaredDeviation_nonneg (List.zipWith (· - ·) p y)
  refine ⟨_, ?_, rfl, ?_, ?_⟩
  · rw [explainedVariance, if_neg (by push Not; exact ⟨h, hl⟩), spread_eq y hy, if_neg hpos.ne', spread_eq _ hd]
  · have := div_nonneg hd0 hpos.le
    linarith
  · rw [sub_eq_self, div_eq_zero_iff, or_iff_left hpos.ne', hz _ hd]

example : explainedVariance [1, 2, 3] [3, 4, 5] = .ok (some 1) := by
  obtain ⟨v, h1, -, -, h2⟩ := C33_explained_variance [1, 2, 3] [3, 4, 5] rfl ⟨1, by simp, 2, by simp, by norm_num⟩
  rw [h1, h2.mpr]
  intro e he f hf
  norm_num at he hf
  rw [he, hf]

end OpenML
