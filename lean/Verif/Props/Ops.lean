import Verif.Model.Ops
import Mathlib.Probability.Distributions.Gaussian.Real

/-!
# Entrywise functions, norms and the normal density (C100, C101)
-/

namespace OpenML

open Ops MeasureTheory

/-- C100: `gaussian_fn` is the logarithm of a probability density: its exponential is positive and integrates to one. The density
has the mean `u` and the variance `v`. -/
theorem C100_density (u v : ℝ) (hv : 0 < v) : ∃ f : ℝ → ℝ, (∀ x, gaussianFn x u v = some (f x)) ∧
    Integrable (fun x => Real.exp (f x)) ∧ ∫ x, Real.exp (f x) = 1 ∧
    (∫ x, x * Real.exp (f x) = u) ∧ ∫ x, (x - u) ^ 2 * Real.exp (f x) = v := by
  obtain ⟨w, rfl⟩ : ∃ w : NNReal, v = w := ⟨⟨v, hv.le⟩, rfl⟩
  have hw : w ≠ 0 := by
    rintro rfl
    simp at hv
  have hpos : 0 < 2 * Real.pi * (w : ℝ) := by have := Real.pi_pos; positivity
  have hexp : ∀ x, Real.exp (-1 * (x - u) ^ 2 / (2 * w) - Real.log (Real.sqrt (2 * Real.pi * w))) =
      ProbabilityTheory.gaussianPDFReal u w x := by
    intro x
    rw [ProbabilityTheory.gaussianPDFReal, Real.exp_sub, Real.exp_log (Real.sqrt_pos.mpr hpos), div_eq_inv_mul, neg_one_mul]
  refine ⟨fun x => -1 * (x - u) ^ 2 / (2 * w) - Real.log (Real.sqrt (2 * Real.pi * w)), fun x => by rw [gaussianFn, if_pos hv], ?_⟩
  simp only [hexp]
  refine ⟨ProbabilityTheory.integrable_gaussianPDFReal u w, ProbabilityTheory.integral_gaussianPDFReal_eq_one u hw, ?_, ?_⟩
  · have h := ProbabilityTheory.integral_id_gaussianReal (μ := u) (v := w)
    rw [ProbabilityTheory.integral_gaussianReal_eq_integral_smul hw] at h
    simpa [mul_comm] using h
  · have h := ProbabilityTheory.variance_fun_id_gaussianReal (μ := u) (v := w)
    rw [ProbabilityTheory.variance_eq_integral (by fun_prop), ProbabilityTheory.integral_id_gaussianReal,
      ProbabilityTheory.integral_gaussianReal_eq_integral_smul hw] at h
    simpa [mul_comm] using h

/-- C100: it is largest at the mean, and depends on the distance to the mean only. -/
theorem C100_shape (u v : ℝ) (hv : 0 < v) (x y : ℝ) (h : |x - u| < |y - u|) :
    ∃ a b, gaussianFn x u v = some a ∧ gaussianFn y u v = some b ∧ b < a := by
  refine ⟨_, _, if_pos hv, if_pos hv, ?_⟩
  have : (x - u) ^ 2 < (y - u) ^ 2 := sq_lt_sq.mpr h
  have h2 : (x - u) ^ 2 / (2 * v) < (y - u) ^ 2 / (2 * v) := div_lt_div_of_pos_right this (by positivity)
  rw [mul_div_assoc, mul_div_assoc]
  linarith

example : ∃ a b, gaussianFn 1 0 2 = some a ∧ gaussianFn 3 0 2 = some b ∧ b < a :=
  C100_shape 0 2 (by norm_num) 1 3 (by norm_num)

/-- C101: the sign is -1, 0 or 1 and the absolute value is the product of entry and sign. -/
theorem C101_sign_abs (x : DMat ℝ) : (sign x).ncols = x.ncols ∧ (absM x).ncols = x.ncols ∧
    (∀ r ∈ (sign x).rows, ∀ s ∈ r, s = -1 ∨ s = 0 ∨ s = 1) ∧
    (absM x).rows = List.zipWith (List.zipWith (· * ·)) x.rows (sign x).rows ∧
    x.rows = List.zipWith (List.zipWith (· * ·)) (absM x).rows (sign x).rows := by
  have hrow : ∀ r : List ℝ, (r.map fun a => |a|) = List.zipWith (· * ·) r (r.map signEntry) ∧
      r = List.zipWith (· * ·) (r.map fun a => |a|) (r.map signEntry) := by
    intro r
    induction r with
    | nil => exact ⟨rfl, rfl⟩
    | cons a r ih =>
      have h : |a| = a * signEntry a ∧ a = |a| * signEntry a := by
        unfold signEntry
        rcases lt_trichotomy a 0 with h | h | h
        · rw [if_pos h, abs_of_neg h]; exact ⟨by ring, by ring⟩
        · simp [h]
        · rw [if_neg (not_lt.mpr h.le), if_pos h, abs_of_pos h]; exact ⟨by ring, by ring⟩
      simp only [List.map_cons, List.zipWith_cons_cons, List.cons.injEq]
      exact ⟨⟨h.1, ih.1⟩, h.2, ih.2⟩
  refine ⟨rfl, rfl, ?_, ?_, ?_⟩
  · intro r hr s hs
    obtain ⟨r, _, rfl⟩ := List.mem_map.mp hr
    obtain ⟨a, _, rfl⟩ := List.mem_map.mp hs
    unfold signEntry
    split
    · exact Or.inl rfl
    · split
      · exact Or.inr (Or.inr rfl)
      · exact Or.inr (Or.inl rfl)
  · simp only [absM, sign]
    induction x.rows with
    | nil => rfl
    | cons r rs ih => simp only [List.map_cons, List.zipWith_cons_cons, List.cons.injEq]; exact ⟨(hrow r).1, ih⟩
  · simp only [absM, sign]
    induction x.rows with
    | nil => rfl
    | cons r rs ih => simp only [List.map_cons, List.zipWith_cons_cons, List.cons.injEq]; exact ⟨(hrow r).2, ih⟩

/-- C101: powers with a natural exponent are repeated products for entries of any sign; non-integer powers of negative entries are
no numbers; powers of positive entries obey the laws of exponents, so that the power `1 / p` undoes the power `p`. -/
theorem C101_power (a : ℝ) :
    (∀ n : ℕ, powEntry n a = some (a ^ n)) ∧
    (∀ p : ℝ, a < 0 → (∀ n : ℤ, p ≠ n) → powEntry p a = none) ∧
    (∀ p q : ℝ, 0 < a → ∃ b c, powEntry p a = some b ∧ powEntry q b = some c ∧ powEntry (p * q) a = some c) ∧
    (∀ p : ℝ, 0 < a → p ≠ 0 → ∃ b, powEntry p a = some b ∧ powEntry (1 / p) b = some a) := by
  refine ⟨fun n => ?_, fun p ha hp => ?_, fun p q ha => ?_, fun p ha hp => ?_⟩
  · rw [powEntry, if_pos, Real.rpow_natCast]
    rcases lt_trichotomy a 0 with h | h | h
    · exact Or.inr (Or.inr ⟨h, n, by simp⟩)
    · exact Or.inr (Or.inl ⟨h, Nat.cast_nonneg n⟩)
    · exact Or.inl h
  · rw [powEntry, if_neg]
    rintro (h | ⟨h, _⟩ | ⟨_, n, hn⟩)
    · linarith
    · linarith
    · exact hp n hn
  · refine ⟨a ^ p, (a ^ p) ^ q, if_pos (Or.inl ha), if_pos (Or.inl (Real.rpow_pos_of_pos ha p)), ?_⟩
    rw [powEntry, if_pos (Or.inl ha), Real.rpow_mul ha.le]
  · refine ⟨a ^ p, if_pos (Or.inl ha), ?_⟩
    rw [powEntry, if_pos (Or.inl (Real.rpow_pos_of_pos ha p)), ← Real.rpow_mul ha.le, mul_one_div_cancel hp, Real.rpow_one]

/-- C101: `power` with a natural exponent multiplies each entry of a matrix that often with itself, whatever the signs. -/
theorem C101_power_matrix (x : DMat ℝ) (n : ℕ) : power x n = x.rows.map fun r => r.map fun a => some (a ^ n) := by
  unfold power
  refine List.map_congr_left fun r _ => List.map_congr_left fun a _ => (C101_power a).1 n

example : power ⟨2, [[1, -2], [3, 0]]⟩ ((3 : ℕ) : ℝ) = [[some 1, some (-8)], [some 27, some 0]] := by
  rw [C101_power_matrix]
  norm_num

example : powEntry 3 (-2) = some (-8) := by
  have := (C101_power (-2)).1 3
  norm_num at this
  exact this

example : powEntry (1 / 2) (-2) = none := by
  refine (C101_power (-2)).2.1 _ (by norm_num) fun n h => ?_
  have h2 : ((2 * n : ℤ) : ℝ) = (1 : ℤ) := by push_cast; linarith
  have := Int.cast_injective h2
  omega

/-- C101: `norm2` returns for each column (axis 0) or row (axis 1) the Euclidean length, the only non-negative number whose square
is the sum of the squared entries; other axes have no result. -/
theorem C101_norm2 (x : DMat ℝ) : (∀ axis : Int, axis ≠ 0 → axis ≠ 1 → norm2 x axis = .ub) ∧
    (∃ v, norm2 x 0 = .ok v ∧ List.Forall₂ (fun l a => 0 ≤ a ∧ a ^ 2 = (l.map fun b => b ^ 2).sum) x.cols v) ∧
    ∃ v, norm2 x 1 = .ok v ∧ List.Forall₂ (fun l a => 0 ≤ a ∧ a ^ 2 = (l.map fun b => b ^ 2).sum) x.rows v := by
  have hline : ∀ l : List ℝ, 0 ≤ normLine l ∧ normLine l ^ 2 = (l.map fun b => b ^ 2).sum := by
    intro l
    have h : (l.map fun a => a * a) = l.map fun b => b ^ 2 := List.map_congr_left fun a _ => (sq a).symm
    refine ⟨Real.sqrt_nonneg _, ?_⟩
    rw [normLine, h, Real.sq_sqrt]
    exact List.sum_nonneg (by simp only [List.mem_map]; rintro _ ⟨a, _, rfl⟩; positivity)
  refine ⟨fun axis h0 h1 => ?_, ⟨_, if_pos rfl, ?_⟩, ⟨x.rows.map normLine, ?_, ?_⟩⟩
  · rw [norm2, if_neg h0, if_neg h1]
  · rw [List.forall₂_map_right_iff, List.forall₂_same]
    exact fun l _ => hline l
  · rw [norm2, if_neg one_ne_zero, if_pos rfl]
  · rw [List.forall₂_map_right_iff, List.forall₂_same]
    exact fun l _ => hline l

/-- Example for C101. -/
example : norm2 ⟨2, [[3, 0], [4, 2]]⟩ 0 = .ok [5, 2] := by
  rw [norm2, if_pos rfl]
  have h1 : Real.sqrt (3 * 3 + 4 * 4) = 5 := by rw [Real.sqrt_eq_iff_mul_self_eq] <;> norm_num
  have h2 : Real.sqrt (2 * 2) = 2 := Real.sqrt_mul_self (by norm_num)
  simp [DMat.cols, DMat.col, normLine, List.range_succ, h1, h2]

/-- C101: `row_norms` returns the Euclidean length of each row as `norm2` does for axis 1, and with `squared` the squares of the lengths. -/
theorem C101_row_norms (x : DMat ℝ) : norm2 x 1 = .ok (rowNorms x false) ∧ rowNorms x true = (rowNorms x false).map (· ^ 2) ∧
    (rowNorms x false).length = x.nrows := by
  refine ⟨?_, ?_, ?_⟩
  · rw [norm2, if_neg one_ne_zero, if_pos rfl]
    simp [rowNorms, normLine, List.map_map, Function.comp_def]
  · simp only [rowNorms, if_true, Bool.false_eq_true, if_false, List.map_map]
    refine List.map_congr_left fun r _ => ?_
    simp only [Function.comp_apply]
    rw [Real.sq_sqrt]
    refine List.sum_nonneg fun b hb => ?_
    obtain ⟨a, _, rfl⟩ := List.mem_map.mp hb
    exact mul_self_nonneg a
  · simp [rowNorms, DMat.nrows]

/-- C101: the product of `diagmat(x)` with a vector multiplies entry by entry, the rows and the columns of the matrix alike. -/
theorem C101_diagmat (x w : List ℝ) (h : w.length = x.length) : (diagmat x).WF ∧ (diagmat x).nrows = x.length ∧ (diagmat x).ncols = x.length ∧
    ((diagmat x).rows.map fun r => (List.zipWith (· * ·) r w).sum) = List.zipWith (· * ·) x w ∧ (diagmat x).cols = (diagmat x).rows := by
  refine ⟨fun r hr => ?_, by simp [diagmat, DMat.nrows], rfl, ?_, ?_⟩
  · obtain ⟨i, _, rfl⟩ := List.mem_map.mp hr
    simp [diagmat]
  · refine List.ext_getElem (by simp [diagmat, h]) fun i h1 h2 => ?_
    have hi : i < x.length := by simpa [h] using h2
    have hw : w = (List.range x.length).map fun j => w.getD j 0 := by
      refine List.ext_getElem (by simp [h]) fun j h3 h4 => ?_
      simp [h3]
    simp only [diagmat, List.map_map, List.getElem_map, List.getElem_range, Function.comp_apply, List.getElem_zipWith]
    conv_lhs => rw [hw]
    rw [List.zipWith_map, List.zipWith_self]
    simp only [ite_mul, zero_mul]
    have hs : ∀ f : Nat → ℝ, ((List.range x.length).map f).sum = ∑ j ∈ Finset.range x.length, f j := fun f => rfl
    rw [hs, Finset.sum_ite_eq, if_pos (Finset.mem_range.mpr hi)]
    have hiw : i < w.length := by omega
    simp [hi, hiw]
  · simp only [DMat.cols, diagmat]
    refine List.map_congr_left fun j hj => ?_
    rw [List.mem_range] at hj
    unfold DMat.col
    rw [List.filterMap_map]
    conv_rhs => rw [← List.filterMap_eq_map]
    refine List.filterMap_congr fun i hi => ?_
    rw [List.mem_range] at hi
    simp only [Function.comp_apply, List.getElem?_map, List.getElem?_range hj, Option.map_some]
    by_cases hij : i = j
    · subst hij
      rfl
    · rw [if_neg hij, if_neg (Ne.symm hij)]

/-- Example for C101. -/
example : diagmat [2, 3] = (⟨2, [[2, 0], [0, 3]]⟩ : DMat Int) := by decide

/-- Example for C101. -/
example : rowNorms ⟨2, [[3, 4], [0, 2]]⟩ true = [25, 4] ∧ rowNorms ⟨2, [[3, 4], [0, 2]]⟩ false = [5, 2] := by
  have h1 : Real.sqrt (3 * 3 + 4 * 4) = 5 := by rw [Real.sqrt_eq_iff_mul_self_eq] <;> norm_num
  have h2 : Real.sqrt (2 * 2) = 2 := Real.sqrt_mul_self (by norm_num)
  constructor
  · norm_num [rowNorms]
  · simp [rowNorms, h1, h2]

end OpenML
