import Verif.Lemmas.Saturation
import Verif.Props.Rounding
import Verif.Lemmas.SGD
import Verif.Lemmas.Analytic
import Verif.Lemmas.Loss
import Mathlib.Analysis.Complex.ExponentialBounds

/-! # Saturation of probabilities, and functions that do not overflow -/

namespace OpenML.Saturation

open Rounding

/-- Exact arithmetic with the real exponential and logarithm. -/
noncomputable def exactEnv : Env where
  toArith := exact
  mono := fun _ _ h => h
  one := rfl
  exp := Real.exp
  exp_zero := Real.exp_zero
  exp_nonneg := fun x _ => (Real.exp_pos x).le
  exp_le := fun _ h => Real.exp_le_one_iff.mpr h
  log := Real.log

theorem binary_rnd_eq {p : Nat} {hp : 0 < p} (x : ℝ) :
    (binary p hp).rnd x = (round (x / 2 ^ (Int.log 2 |x| + 1 - p)) : ℝ) * 2 ^ (Int.log 2 |x| + 1 - p) := rfl

theorem round_mono {a b : ℝ} (h : a ≤ b) : round a ≤ round b := by
  rw [round_eq, round_eq]
  exact Int.floor_mono (by linarith)

theorem scaled_bounds {p : Nat} (hp : 0 < p) {x : ℝ} (hx : x ≠ 0) :
    ((2 ^ (p - 1) : ℤ) : ℝ) ≤ |x| / 2 ^ (Int.log 2 |x| + 1 - p) ∧ |x| / 2 ^ (Int.log 2 |x| + 1 - p) ≤ ((2 ^ p : ℤ) : ℝ) := by
  have hpos := two_zpow_pos (Int.log 2 |x| + 1 - p)
  have h1 := Int.zpow_log_le_self (b := 2) (r := |x|) (by norm_num) (abs_pos.mpr hx)
  have h2 := Int.lt_zpow_succ_log_self (b := 2) (by norm_num) |x|
  push_cast at h1 h2 ⊢
  rw [le_div_iff₀ hpos, div_le_iff₀ hpos, ← zpow_natCast, ← zpow_natCast, ← zpow_add₀ two_ne_zero, ← zpow_add₀ two_ne_zero]
  have e1 : ((p - 1 : ℕ) : ℤ) + (Int.log 2 |x| + 1 - p) = Int.log 2 |x| := by
    push_cast [Nat.cast_sub (show 1 ≤ p from hp)]
    ring
  have e2 : (p : ℤ) + (Int.log 2 |x| + 1 - p) = Int.log 2 |x| + 1 := by ring
  rw [e1, e2]
  exact ⟨h1, h2.le⟩

theorem scaled_zpow {p : Nat} (hp : 0 < p) (L : ℤ) :
    ((2 ^ (p - 1) : ℤ) : ℝ) * 2 ^ (L + 1 - p) = 2 ^ L ∧ ((2 ^ p : ℤ) : ℝ) * 2 ^ (L + 1 - p) = 2 ^ (L + 1) := by
  push_cast
  rw [← zpow_natCast, ← zpow_natCast, ← zpow_add₀ two_ne_zero, ← zpow_add₀ two_ne_zero]
  constructor
  · congr 1
    push_cast [Nat.cast_sub (show 1 ≤ p from hp)]
    ring
  · congr 1
    ring

theorem binary_pos {p : Nat} {hp : 0 < p} {x : ℝ} (hx : 0 < x) :
    (2 : ℝ) ^ Int.log 2 |x| ≤ (binary p hp).rnd x ∧ (binary p hp).rnd x ≤ 2 ^ (Int.log 2 |x| + 1) := by
  have hpos := two_zpow_pos (Int.log 2 |x| + 1 - p)
  obtain ⟨h1, h2⟩ := scaled_bounds hp hx.ne'
  obtain ⟨e1, e2⟩ := scaled_zpow hp (Int.log 2 |x|)
  have h3 := round_mono h1
  have h4 := round_mono h2
  rw [round_intCast, abs_of_pos hx] at h3 h4
  rw [binary_rnd_eq, ← e1, ← e2, abs_of_pos hx]
  rw [abs_of_pos hx] at hpos
  exact ⟨mul_le_mul_of_nonneg_right (by exact_mod_cast h3) hpos.le, mul_le_mul_of_nonneg_right (by exact_mod_cast h4) hpos.le⟩

theorem binary_neg {p : Nat} {hp : 0 < p} {x : ℝ} (hx : x < 0) :
    -(2 : ℝ) ^ (Int.log 2 |x| + 1) ≤ (binary p hp).rnd x ∧ (binary p hp).rnd x ≤ -2 ^ Int.log 2 |x| := by
  have hpos := two_zpow_pos (Int.log 2 |x| + 1 - p)
  obtain ⟨h1, h2⟩ := scaled_bounds hp hx.ne
  obtain ⟨e1, e2⟩ := scaled_zpow hp (Int.log 2 |x|)
  set q := (2 : ℝ) ^ (Int.log 2 |x| + 1 - p) with hq
  have ex : |x| / q = -(x / q) := by rw [abs_of_neg hx, neg_div]
  rw [ex] at h1 h2
  have h3 := round_mono (show x / q ≤ ((-2 ^ (p - 1) : ℤ) : ℝ) by push_cast at h1 ⊢; linarith)
  have h4 := round_mono (show ((-2 ^ p : ℤ) : ℝ) ≤ x / q by push_cast at h2 ⊢; linarith)
  rw [round_intCast] at h3 h4
  rw [binary_rnd_eq, ← hq, ← e1, ← e2]
  constructor
  · have : ((-2 ^ p : ℤ) : ℝ) * q ≤ (round (x / q) : ℝ) * q := mul_le_mul_of_nonneg_right (by exact_mod_cast h4) hpos.le
    push_cast at this ⊢
    linarith
  · have : (round (x / q) : ℝ) * q ≤ ((-2 ^ (p - 1) : ℤ) : ℝ) * q := mul_le_mul_of_nonneg_right (by exact_mod_cast h3) hpos.le
    push_cast at this ⊢
    linarith

theorem binary_zero {p : Nat} {hp : 0 < p} : (binary p hp).rnd 0 = 0 := by simp [binary_rnd_eq]

/-- Rounding to nearest is monotone. -/
theorem binary_mono (p : Nat) (hp : 0 < p) : Monotone (binary p hp).rnd := by
  intro x y hxy
  have same : Int.log 2 |x| = Int.log 2 |y| → (binary p hp).rnd x ≤ (binary p hp).rnd y := by
    intro h
    have hpos := two_zpow_pos (Int.log 2 |y| + 1 - p)
    rw [binary_rnd_eq, binary_rnd_eq, h]
    refine mul_le_mul_of_nonneg_right ?_ hpos.le
    exact_mod_cast round_mono (div_le_div_of_nonneg_right hxy hpos.le)
  have nonneg : ∀ z : ℝ, 0 ≤ z → 0 ≤ (binary p hp).rnd z := by
    intro z hz
    rcases hz.eq_or_lt with rfl | hz
    · rw [binary_zero]
    · exact (two_zpow_pos _).le.trans (binary_pos hz).1
  have nonpos : ∀ z : ℝ, z ≤ 0 → (binary p hp).rnd z ≤ 0 := by
    intro z hz
    rcases hz.eq_or_lt with rfl | hz
    · rw [binary_zero]
    · exact (binary_neg hz).2.trans (by simpa using (two_zpow_pos _).le)
  rcases le_or_gt x 0 with hx | hx
  · rcases le_or_gt 0 y with hy | hy
    · exact (nonpos x hx).trans (nonneg y hy)
    · have hx' : x < 0 := hxy.trans_lt hy
      have hlog : Int.log 2 |y| ≤ Int.log 2 |x| := Int.log_mono_right (abs_pos.mpr hy.ne) (by rw [abs_of_neg hy, abs_of_neg hx']; linarith)
      rcases hlog.eq_or_lt with h | h
      · exact same h.symm
      · refine (binary_neg hx').2.trans (le_trans ?_ (binary_neg hy).1)
        exact neg_le_neg (zpow_le_zpow_right₀ (by norm_num) (by omega))
  · have hy : 0 < y := hx.trans_le hxy
    have hlog : Int.log 2 |x| ≤ Int.log 2 |y| := Int.log_mono_right (abs_pos.mpr hx.ne') (by rw [abs_of_pos hx, abs_of_pos hy]; exact hxy)
    rcases hlog.eq_or_lt with h | h
    · exact same h
    · exact (binary_pos hx).2.trans (le_trans (zpow_le_zpow_right₀ (by norm_num) (by omega)) (binary_pos hy).1)

/-- Numbers a little above one are rounded to one. -/
theorem binary_one_add {p : Nat} {hp : 0 < p} {t : ℝ} (h0 : 0 ≤ t) (h1 : t < 2⁻¹ ^ p) : (binary p hp).rnd (1 + t) = 1 := by
  obtain ⟨e1, e2⟩ := scaled_zpow hp 0
  have e3 : ((2 : ℝ) ^ ((0 : ℤ) + 1 - p)) = 2 * 2⁻¹ ^ p := by
    rw [zero_add, zpow_sub₀ two_ne_zero, zpow_one, zpow_natCast, inv_pow, div_eq_mul_inv]
  have hle : (2⁻¹ : ℝ) ^ p ≤ 2⁻¹ := pow_le_of_le_one (by norm_num) (by norm_num) hp.ne'
  have := binary_eval (hp := hp) (x := 1 + t) (0 + 1 - p) (2 ^ (p - 1)) ?_ ?_ ?_ ?_
  · rw [this, e1, zpow_zero]
  · rw [abs_of_pos (by linarith)]
    have : (0 + 1 - (p : ℤ)) + p - 1 = 0 := by ring
    rw [this, zpow_zero]
    linarith
  · rw [abs_of_pos (by linarith)]
    have : (0 + 1 - (p : ℤ)) + p = 1 := by ring
    rw [this, zpow_one]
    linarith
  · rw [sub_mul, e1, e3, zpow_zero]
    have : (0 : ℝ) < 2⁻¹ ^ p := by positivity
    linarith
  · rw [add_mul, e1, e3, zpow_zero]
    linarith

/-- Binary arithmetic with correctly rounded exponential. -/
noncomputable def binaryEnv (p : Nat) (hp : 0 < p) : Env where
  toArith := binary p hp
  mono := binary_mono p hp
  one := by simpa using binary_one_add (hp := hp) le_rfl (by positivity)
  exp x := (binary p hp).rnd (Real.exp x)
  exp_zero := by
    rw [Real.exp_zero]
    simpa using binary_one_add (hp := hp) le_rfl (by positivity)
  exp_nonneg x _ := by
    have := binary_mono p hp (Real.exp_pos x).le
    rwa [binary_zero] at this
  exp_le x h := by
    have := binary_mono p hp (Real.exp_le_one_iff.mpr h)
    rwa [show (binary p hp).rnd 1 = 1 by simpa using binary_one_add (hp := hp) le_rfl (by positivity)] at this
  log := Real.log

theorem sigmoid_eq_one (V : Env) {x : ℝ} (hx : 0 ≤ x) (h : V.rnd (1 + V.exp (-x)) = 1) : sigmoid V x = 1 := by
  rw [sigmoid, min_eq_right hx, abs_of_nonneg hx, h, V.exp_zero, div_one, V.one]

/-- One sample of the loss. -/
theorem term_cases (V : Env) {a : ℝ} (ha : a = 0 ∨ a = 1) (x : ℝ) :
    (((a = 1 ∧ sigmoid V x = 1) ∨ (a = 0 ∧ sigmoid V x = 0)) ∧ term V a (sigmoid V x) = .nan) ∨
    (((a = 1 ∧ sigmoid V x = 0) ∨ (a = 0 ∧ sigmoid V x = 1)) ∧ term V a (sigmoid V x) = .pinf) ∨
    ((0 < sigmoid V x ∧ sigmoid V x < 1) ∧ ∃ r, term V a (sigmoid V x) = .fin r) := by
  obtain ⟨h0, h1⟩ := sigmoid_range (V := V) x
  rcases h0.eq_or_lt with h0 | h0
  · rcases ha with rfl | rfl
    · exact Or.inl ⟨Or.inr ⟨rfl, h0.symm⟩, term_nan (Or.inr ⟨rfl, h0.symm⟩)⟩
    · exact Or.inr (Or.inl ⟨Or.inl ⟨rfl, h0.symm⟩, term_pinf (Or.inl ⟨rfl, h0.symm⟩)⟩)
  · rcases h1.eq_or_lt with h1 | h1
    · rcases ha with rfl | rfl
      · exact Or.inr (Or.inl ⟨Or.inr ⟨rfl, h1⟩, term_pinf (Or.inr ⟨rfl, h1⟩)⟩)
      · exact Or.inl ⟨Or.inl ⟨rfl, h1⟩, term_nan (Or.inl ⟨rfl, h1⟩)⟩
    · exact Or.inr (Or.inr ⟨⟨h0, h1⟩, _, term_fin h0 h1 a⟩)

theorem mem_terms {V : Env} {xs ys : List ℝ} {t : XF} :
    t ∈ List.zipWith (fun a x => term V a (sigmoid V x)) ys xs ↔ ∃ q ∈ ys.zip xs, t = term V q.1 (sigmoid V q.2) := by
  rw [← List.map_uncurry_zip_eq_zipWith, List.mem_map]
  exact ⟨fun ⟨q, h, e⟩ => ⟨q, h, e.symm⟩, fun ⟨q, h, e⟩ => ⟨q, h, e.symm⟩⟩

theorem evaluate_nan {V : Env} {xs ys : List ℝ} {reg : ℝ} {v : XF} (h : Evaluate V xs ys reg v) {q : ℝ × ℝ} (hq : q ∈ ys.zip xs)
    (hs : (q.1 = 1 ∧ sigmoid V q.2 = 1) ∨ (q.1 = 0 ∧ sigmoid V q.2 = 0)) : v = .nan := by
  obtain ⟨_, s, h, rfl⟩ := h
  rw [summedX_nan h (mem_terms.mpr ⟨q, hq, (term_nan hs).symm⟩)]
  rfl

end OpenML.Saturation

namespace OpenML

open Saturation Rounding Spec

/-- C132: the logarithmic loss is NaN exactly if a sample has its own label with computed probability one; otherwise infinite exactly if
a sample has its own label with computed probability zero; otherwise finite. -/
theorem C132_loss (V : Env) (xs ys : List ℝ) (reg : ℝ) (v : XF) (hy : ∀ a ∈ ys, a = 0 ∨ a = 1) (h : Evaluate V xs ys reg v) :
    let sure := ∃ q ∈ ys.zip xs, (q.1 = 1 ∧ sigmoid V q.2 = 1) ∨ (q.1 = 0 ∧ sigmoid V q.2 = 0)
    let wrong := ∃ q ∈ ys.zip xs, (q.1 = 1 ∧ sigmoid V q.2 = 0) ∨ (q.1 = 0 ∧ sigmoid V q.2 = 1)
    (v = .nan ↔ sure) ∧ (v = .pinf ↔ ¬ sure ∧ wrong) ∧ ((∃ r, v = .fin r) ↔ ¬ sure ∧ ¬ wrong) := by
  intro sure wrong
  by_cases hs : sure
  · obtain ⟨q, hq, hs'⟩ := hs
    have hv := evaluate_nan h hq hs'
    have hs : sure := ⟨q, hq, hs'⟩
    simp [hv, hs]
  · obtain ⟨_, s, hsum, rfl⟩ := h
    have hl : ∀ t ∈ List.zipWith (fun a x => term V a (sigmoid V x)) ys xs, t = .pinf ∨ ∃ r, t = .fin r := by
      intro t ht
      obtain ⟨q, hq, rfl⟩ := mem_terms.mp ht
      rcases term_cases V (hy q.1 (List.of_mem_zip hq).1) q.2 with ⟨h1, _⟩ | ⟨_, h2⟩ | ⟨_, h2⟩
      · exact absurd ⟨q, hq, h1⟩ hs
      · exact Or.inl h2
      · exact Or.inr h2
    have hw : XF.pinf ∈ List.zipWith (fun a x => term V a (sigmoid V x)) ys xs ↔ wrong := by
      rw [mem_terms]
      constructor
      · rintro ⟨q, hq, e⟩
        rcases term_cases V (hy q.1 (List.of_mem_zip hq).1) q.2 with ⟨h1, _⟩ | ⟨h1, _⟩ | ⟨_, r, h2⟩
        · exact absurd ⟨q, hq, h1⟩ hs
        · exact ⟨q, hq, h1⟩
        · rw [h2] at e
          cases e
      · rintro ⟨q, hq, h1⟩
        exact ⟨q, hq, (term_pinf h1).symm⟩
    rcases summedX_pinf hsum hl with ⟨h1, rfl⟩ | ⟨h1, r, rfl⟩
    · simp [hs, hw.mp h1, XF.add, XF.divNat]
    · rw [hw] at h1
      simp [hs, h1, XF.add, XF.divNat]

/-- C132: a possible result always exists. -/
theorem C132_defined (V : Env) (xs ys : List ℝ) (reg : ℝ) (h : xs.length = ys.length) : ∃ v, Evaluate V xs ys reg v := by
  obtain ⟨s, hs⟩ := exists_summedX V (List.zipWith (fun a x => term V a (sigmoid V x)) ys xs)
  exact ⟨_, h, s, hs, rfl⟩

theorem Saturation.exp_37 : (9 / 8 : ℝ) * Real.exp (-37) < 2⁻¹ ^ 53 := by
  have h1 : (2.7182818283 : ℝ) ^ 37 ≤ Real.exp 1 ^ 37 := by
    exact pow_le_pow_left₀ (by norm_num) Real.exp_one_gt_d9.le 37
  have h2 : Real.exp (-37) = (Real.exp 1 ^ 37)⁻¹ := by
    rw [Real.exp_neg, ← Real.exp_nat_mul]
    norm_num
  have h3 : (Real.exp 1 ^ 37)⁻¹ ≤ ((2.7182818283 : ℝ) ^ 37)⁻¹ := inv_anti₀ (by positivity) h1
  rw [h2]
  refine lt_of_le_of_lt (mul_le_mul_of_nonneg_left h3 (by norm_num)) ?_
  norm_num

theorem Saturation.exp_17 : (9 / 8 : ℝ) * Real.exp (-17) < 2⁻¹ ^ 24 := by
  have h1 : (2.7182818283 : ℝ) ^ 17 ≤ Real.exp 1 ^ 17 := by
    exact pow_le_pow_left₀ (by norm_num) Real.exp_one_gt_d9.le 17
  have h2 : Real.exp (-17) = (Real.exp 1 ^ 17)⁻¹ := by
    rw [Real.exp_neg, ← Real.exp_nat_mul]
    norm_num
  have h3 : (Real.exp 1 ^ 17)⁻¹ ≤ ((2.7182818283 : ℝ) ^ 17)⁻¹ := inv_anti₀ (by positivity) h1
  rw [h2]
  refine lt_of_le_of_lt (mul_le_mul_of_nonneg_left h3 (by norm_num)) ?_
  norm_num

theorem Saturation.saturates {p : Nat} {hp : 0 < p} {b : ℝ} (hb : 0 ≤ b) (hlim : 9 / 8 * Real.exp (-b) < 2⁻¹ ^ p) (V : Env)
    (hV : V.toArith = binary p hp) (hE : ∀ x ≤ 0, V.exp x ≤ 9 / 8 * Real.exp x) {x : ℝ} (hx : b ≤ x) : sigmoid V x = 1 := by
  refine sigmoid_eq_one V (hb.trans hx) ?_
  rw [show V.rnd = (binary p hp).rnd by rw [← hV]]
  refine binary_one_add (V.exp_nonneg _ (by linarith)) ?_
  refine lt_of_le_of_lt (hE _ (by linarith)) (lt_of_le_of_lt ?_ hlim)
  exact mul_le_mul_of_nonneg_left (Real.exp_le_exp.mpr (by linarith)) (by norm_num)

/-- C132: with `double`, computed probabilities are exactly one from the score 37 on, with `float` from 17 on, if the exponential of the
library is not more than an eighth too large. -/
theorem C132_threshold (V : Env) (hE : ∀ x ≤ 0, V.exp x ≤ 9 / 8 * Real.exp x) :
    (V.toArith = binary 53 (by norm_num) → ∀ x ≥ 37, sigmoid V x = 1) ∧
    (V.toArith = binary 24 (by norm_num) → ∀ x ≥ 17, sigmoid V x = 1) :=
  ⟨fun hV _ hx => saturates (by norm_num) exp_37 V hV hE hx, fun hV _ hx => saturates (by norm_num) exp_17 V hV hE hx⟩

/-- C132: if among any `num_iters_no_change` consecutive epochs one has the loss NaN, then training ends with the exception. -/
theorem C132_epochs (V : Env) (slack : ℝ) (noChange maxIter : Nat) (hn : 1 ≤ noChange) (sums : Nat → XF)
    (h : ∀ k, k + noChange ≤ maxIter → ∃ j, k ≤ j ∧ j < k + noChange ∧ sums j = .nan) :
    stopEpoch V slack noChange maxIter sums = none := by
  rcases hr : stopEpoch V slack noChange maxIter sums with _ | i
  · rfl
  · obtain ⟨_, h2, h3, h4⟩ := stopLoop_some slack noChange hn sums maxIter 0 .pinf 0 i hr
    obtain ⟨j, h5, h6, h7⟩ := h (i + 1 - noChange) (by omega)
    exact absurd h7 (h4 j (by omega) (by omega) (by omega))

/-- C132: training on data in which one sample with label 1 keeps a computed probability of one cannot succeed: the losses of the epochs
are sums of losses of batches, and in every epoch one batch has such a sample. -/
theorem C132_training (V : Env) (slack : ℝ) (noChange maxIter : Nat) (hn : 1 ≤ noChange) (sums : Nat → XF) (losses : Nat → List XF)
    (hs : ∀ k < maxIter, SummedX V (losses k) (sums k))
    (hb : ∀ k < maxIter, ∃ v ∈ losses k, ∃ xs ys reg, Evaluate V xs ys reg v ∧ ∃ x, (1, x) ∈ ys.zip xs ∧ sigmoid V x = 1) :
    stopEpoch V slack noChange maxIter sums = none := by
  refine C132_epochs V slack noChange maxIter hn sums fun k hk => ⟨k, le_rfl, by omega, ?_⟩
  obtain ⟨v, hv, xs, ys, reg, he, x, hx, h1⟩ := hb k (by omega)
  obtain rfl := evaluate_nan he hx (Or.inl ⟨rfl, h1⟩)
  exact summedX_nan (hs k (by omega)) hv

/-- Example for `C132_loss`, `C132_training`: correctly rounded `double` arithmetic, a sample with label 1 and score 40, one batch. -/
example : ∃ V : Env, V.toArith = binary 53 (by norm_num) ∧ (∀ x ≤ 0, V.exp x ≤ 9 / 8 * Real.exp x) ∧ sigmoid V 40 = 1 ∧
    Evaluate V [40] [1] 0 .nan ∧ stopEpoch V (1 / 100) 5 1000 (fun _ => .nan) = none := by
  have hE : ∀ x ≤ 0, (binaryEnv 53 (by norm_num)).exp x ≤ 9 / 8 * Real.exp x := by
    intro x _
    have h1 := (abs_le.mp ((binary 53 (by norm_num)).err (Real.exp x))).2
    rw [abs_of_pos (Real.exp_pos x)] at h1
    have h2 : (binary 53 (by norm_num)).u ≤ 1 / 8 := by
      show (2⁻¹ : ℝ) ^ 53 ≤ 1 / 8
      norm_num
    show (binary 53 (by norm_num)).rnd (Real.exp x) ≤ _
    nlinarith [Real.exp_pos x]
  have hs := (C132_threshold (binaryEnv 53 (by norm_num)) hE).1 rfl 40 (by norm_num)
  obtain ⟨v, hv⟩ := C132_defined (binaryEnv 53 (by norm_num)) [40] [1] 0 rfl
  have hn := evaluate_nan hv (q := (1, 40)) (by simp) (Or.inl ⟨rfl, hs⟩)
  subst hn
  refine ⟨_, rfl, hE, hs, hv, ?_⟩
  exact C132_training _ _ 5 1000 (by norm_num) _ (fun _ => [.nan]) (fun _ _ => .single _)
    fun _ _ => ⟨.nan, by simp, [40], [1], 0, hv, 40, by simp, hs⟩

theorem Saturation.summed_exact {l : List ℝ} {s : ℝ} : Summed exact l s ↔ s = l.sum := by
  constructor
  · intro h
    induction h with
    | nil => rfl
    | single x => simp
    | add _ _ _ _ hm ih1 ih2 =>
      rw [hm.sum_eq, List.sum_append, ← ih1, ← ih2]
      rfl
  · rintro rfl
    induction l with
    | nil => exact .nil
    | cons a l ih =>
      cases l with
      | nil => simpa using Summed.single (A := exact) a
      | cons b l => exact Summed.add (A := exact) (.single a) ih (by simp) (by simp) (by simp)

theorem Saturation.sigmoid_exact (x : ℝ) : sigmoid exactEnv x = Real.sigmoid x := by
  have h := Analytic.sigmoidEntry_eq x
  have e : (if 0 ≤ x then 0 else x) = min x 0 := by
    split
    · rename_i h
      exact (min_eq_right h).symm
    · rename_i h
      exact (min_eq_left (not_le.mp h).le).symm
  rw [e] at h
  exact h

/-- C132: in exact arithmetic the loss and the number of the last epoch are those of the other models. -/
theorem C132_exact :
    (∀ (lambda : ℝ) (X : DMat ℝ) (y w xs : List ℝ) (v : XF), Loss.mulVec X w = .ok xs →
      (Evaluate exactEnv xs y (Loss.penalty lambda X.nrows w) v ↔ ∃ r, v = .fin r ∧ Loss.logEvaluate lambda X y w = .ok r)) ∧
    (∀ {W S : Type} (loss : SGD.LossFn ℝ W) (weights : S → W) (step : SGD.Step ℝ S) (p : SGD.Params ℝ), p.batchSize ≠ 0 →
      ∀ (X : DMat ℝ) (y : List ℝ) (s : S) (D : Nat → DMat ℝ × List ℝ) (st : Nat → S) (L : Nat → ℝ),
      IsRun loss weights step p (X.nrows / p.batchSize) X y s p.maxIter D st L →
      SGD.optimize loss weights step p X y s =
        match stopEpoch exactEnv (p.tol * (p.batchSize : ℝ)) p.noChange p.maxIter fun i => .fin (L i) with
        | some i => .ok (weights (st (i + 1)))
        | none => .throw .runtimeError) := by
  constructor
  · intro lambda X y w xs v hxs
    have hn : xs.length = X.nrows := by
      unfold Loss.mulVec at hxs
      split at hxs
      · rw [← Res.ok.inj hxs]
        simp [DMat.nrows]
      · cases hxs
    have hterm : ∀ a x : ℝ, term exactEnv a (sigmoid exactEnv x) =
        .fin (-1 * a * Real.log (Real.sigmoid x) - (1 - a) * Real.log (1 - Real.sigmoid x)) := by
      intro a x
      rw [sigmoid_exact, term_fin (Real.sigmoid_pos x) (Real.sigmoid_lt_one x), sub_eq_add_neg]
      rfl
    have hl : List.zipWith (fun a x => term exactEnv a (sigmoid exactEnv x)) y xs =
        (List.zipWith (fun a x => -1 * a * Real.log (Real.sigmoid x) - (1 - a) * Real.log (1 - Real.sigmoid x)) y xs).map XF.fin := by
      rw [List.map_zipWith]
      congr 1
      funext a x
      exact hterm a x
    have hval : ∀ l : List ℝ, (l.map XF.fin).map XF.val = l := by
      intro l
      rw [List.map_map]
      exact List.map_id _
    have hlog : Loss.logEvaluate lambda X y w = if y.length ≠ xs.length then .ub else
        .ok ((List.zipWith (fun a x => -1 * a * Real.log (Real.sigmoid x) - (1 - a) * Real.log (1 - Real.sigmoid x)) y xs).sum /
          (X.nrows : ℝ) + Loss.penalty lambda X.nrows w) := by
      unfold Loss.logEvaluate
      rw [hxs, Res.bind_ok]
      simp only [Loss.sigmoidV_eq, List.length_map]
      split
      · rfl
      · rename_i h
        push Not at h
        unfold Loss.subV
        rw [if_pos (by simp), Res.bind_ok]
        congr 4
        clear hl hn hxs
        induction y generalizing xs with
        | nil => simp
        | cons a y ih =>
          cases xs with
          | nil => simp at h
          | cons x xs => simp only [List.map_cons, List.zipWith_cons_cons, ih xs (by simpa using h)]
    rw [hlog]
    constructor
    · rintro ⟨h1, s, hs, rfl⟩
      rw [hl] at hs
      obtain ⟨r, rfl, hr⟩ := summedX_val hs fun x hx => by
        obtain ⟨a, _, rfl⟩ := List.mem_map.mp hx
        exact ⟨a, rfl⟩
      rw [hval] at hr
      have hr' := summed_exact.mp hr
      refine ⟨_, rfl, ?_⟩
      rw [if_neg (not_not.mpr h1.symm), hr', ← hn, h1]
      rfl
    · rintro ⟨r, rfl, h⟩
      split at h
      · cases h
      · rename_i h1
        push Not at h1
        refine ⟨h1.symm, _, hl ▸ summedX_of_summed (V := exactEnv) (summed_exact.mpr rfl), ?_⟩
        rw [← Res.ok.inj h, h1, hn]
        rfl
  · intro W S loss weights step p hp X y s D st L hr
    obtain ⟨h0, hs0, hr⟩ := (SGD.isRun_iff _ _ _ _ _ _ _ _ _ _ _ _).mp hr
    have key : ∀ (n iter : Nat) (best : Option ℝ) (count : Nat), iter + n ≤ p.maxIter →
        SGD.epochLoop loss weights step p (X.nrows / p.batchSize) n iter (D iter).1 (D iter).2 (st iter) best count =
        match stopLoop exactEnv (p.tol * (p.batchSize : ℝ)) p.noChange (fun i => .fin (L i)) n iter (best.elim .pinf .fin) count with
        | some i => .ok (weights (st (i + 1)))
        | none => .throw .runtimeError := by
      intro n
      induction n with
      | zero => intros; rfl
      | succ n ih =>
        intro iter best count hle
        have hw : XF.lt (XF.sub exactEnv (best.elim .pinf .fin) (.fin (p.tol * (p.batchSize : ℝ)))) (.fin (L iter)) =
            SGD.worse p best (L iter) := by
          cases best with
          | none => rfl
          | some b =>
            show decide (b + -(p.tol * (p.batchSize : ℝ)) < L iter) = decide (L iter > b - p.tol * (p.batchSize : ℝ))
            rw [sub_eq_add_neg]
        have hb : (if XF.lt (.fin (L iter)) (best.elim .pinf .fin) then XF.fin (L iter) else best.elim .pinf .fin) =
            (some (SGD.newBest best (L iter))).elim .pinf .fin := by
          cases best with
          | none => rfl
          | some b =>
            show (if decide (L iter < b) = true then XF.fin (L iter) else XF.fin b) = XF.fin (if L iter < b then L iter else b)
            by_cases hlt : L iter < b <;> simp [hlt]
        rw [SGD.epochLoop, hr iter (by omega), Res.bind_ok, stopLoop, hw, hb]
        dsimp only
        generalize (if SGD.worse p best (L iter) = true then count + 1 else 0) = c
        by_cases hc : c ≥ p.noChange
        · rw [if_pos hc, if_pos hc]
        · rw [if_neg hc, if_neg hc]
          exact ih (iter + 1) _ _ (by omega)
    unfold SGD.optimize
    rw [if_neg hp]
    have := key p.maxIter 0 none 0 (by omega)
    rw [h0, hs0] at this
    exact this

/-- Example for `C132_exact`: scores of two samples, and a run of three epochs with a step that halves the weight. -/
example : Loss.mulVec (⟨1, [[1], [2]]⟩ : DMat ℝ) [3] = .ok [3, 6] ∧
    ∃ D st L, IsRun ⟨fun _ _ w => .ok w, fun _ _ w => .ok w⟩ id (fun w _ _ _ _ => .ok (w / 2))
      ({ maxIter := 3, batchSize := 1, noChange := 2, tol := 0, decay := fun _ => .ok 1, shuffle := none } : SGD.Params ℝ)
      1 ⟨1, [[1]]⟩ [1] (1 : ℝ) 3 D st L ∧ L 2 = 1 / 8 := by
  constructor
  · norm_num [Loss.mulVec, Loss.dotL]
  · refine ⟨fun _ => (⟨1, [[1]]⟩, [1]), fun i => 1 / 2 ^ i, fun i => 1 / 2 ^ (i + 1), ⟨rfl, by norm_num, fun i _ => ⟨rfl, 1, rfl, ?_⟩⟩, by norm_num⟩
    refine ⟨fun j => 1 / 2 ^ (i + j), fun j => 1 / 2 ^ (i + j + 1), by simp, rfl, by simp, fun j hj => ?_⟩
    obtain rfl : j = 0 := by omega
    refine ⟨by simp, by simp, ?_, rfl⟩
    show Res.ok _ = Res.ok _
    congr 1
    show 1 / (2 : ℝ) ^ i / 2 = 1 / 2 ^ (i + 1)
    rw [pow_succ]
    ring

theorem Saturation.exp_36 : (2 : ℝ)⁻¹ ^ 52 < 31 / 32 * Real.exp (-36) := by
  have h1 : Real.exp 1 ^ 36 ≤ (2.7182818286 : ℝ) ^ 36 := pow_le_pow_left₀ (Real.exp_pos 1).le Real.exp_one_lt_d9.le 36
  have h2 : Real.exp (-36) = (Real.exp 1 ^ 36)⁻¹ := by
    rw [Real.exp_neg, ← Real.exp_nat_mul]
    norm_num
  have h3 : ((2.7182818286 : ℝ) ^ 36)⁻¹ ≤ (Real.exp 1 ^ 36)⁻¹ := inv_anti₀ (pow_pos (Real.exp_pos 1) 36) h1
  rw [h2]
  refine lt_of_lt_of_le ?_ (mul_le_mul_of_nonneg_left h3 (by norm_num))
  norm_num

/-- C132: with `double` and an exponential that is not more than a thirty-second part too small, the loss is finite if all scores are
between -36 and 36. -/
theorem C132_safe (V : Env) (hV : V.toArith = binary 53 (by norm_num)) (hE : ∀ x ≤ 0, 31 / 32 * Real.exp x ≤ V.exp x)
    (xs ys : List ℝ) (reg : ℝ) (v : XF) (h : Evaluate V xs ys reg v) (hx : ∀ x ∈ xs, |x| ≤ 36) :
    (∀ x ∈ xs, 0 < sigmoid V x ∧ sigmoid V x < 1) ∧ ∃ r, v = .fin r := by
  have hrnd : V.rnd = (binary 53 (by norm_num)).rnd := by rw [← hV]
  have hu : V.u = 2⁻¹ ^ 53 := by
    rw [hV]
    rfl
  have r1 : V.rnd (1 + 2⁻¹ ^ 52) = 1 + 2⁻¹ ^ 52 := by
    rw [hrnd, binary_eval (-52) (2 ^ 52 + 1)]
    all_goals norm_num [abs_of_pos]
  have r2 : V.rnd (1 - 2⁻¹ ^ 53) = 1 - 2⁻¹ ^ 53 := by
    rw [hrnd, binary_eval (-53) (2 ^ 53 - 1)]
    all_goals norm_num [abs_of_pos]
  have key : ∀ x ∈ xs, 0 < sigmoid V x ∧ sigmoid V x < 1 := by
    intro x hxx
    have hb := hx x hxx
    have p1 : 0 < V.exp (min x 0) := lt_of_lt_of_le (by positivity) (hE _ (min_le_right _ _))
    have p2 : 2⁻¹ ^ 52 ≤ V.exp (-|x|) := by
      refine exp_36.le.trans ((mul_le_mul_of_nonneg_left (Real.exp_le_exp.mpr ?_) (by norm_num)).trans (hE (-|x|) (by simp)))
      linarith
    have p3 : 1 + 2⁻¹ ^ 52 ≤ V.rnd (1 + V.exp (-|x|)) := r1 ▸ V.mono (by linarith)
    have p4 : (0 : ℝ) < 2⁻¹ ^ 52 := by positivity
    refine ⟨V.rnd_pos (div_pos p1 (by linarith)), ?_⟩
    have p5 : V.exp (min x 0) / V.rnd (1 + V.exp (-|x|)) ≤ 1 - 2⁻¹ ^ 53 := by
      rw [div_le_iff₀ (by linarith)]
      refine (V.exp_le _ (min_le_right _ _)).trans (le_trans ?_ (mul_le_mul_of_nonneg_left p3 (by norm_num)))
      norm_num
    have p6 := V.mono p5
    rw [r2] at p6
    exact lt_of_le_of_lt p6 (by norm_num)
  refine ⟨key, ?_⟩
  obtain ⟨_, s, hs, rfl⟩ := h
  obtain ⟨r, rfl, _⟩ := summedX_val hs fun t ht => by
    obtain ⟨q, hq, rfl⟩ := mem_terms.mp ht
    obtain ⟨h0, h1⟩ := key q.2 (List.of_mem_zip hq).2
    exact ⟨_, term_fin h0 h1 q.1⟩
  exact ⟨_, rfl⟩

/-- Example for `C132_safe`: exact exponentials, scores 36 and -5. -/
example : ∃ V : Env, V.toArith = binary 53 (by norm_num) ∧ (∀ x ≤ 0, 31 / 32 * Real.exp x ≤ V.exp x) ∧ ∃ v, Evaluate V [36, -5] [1, 0] 1 v := by
  let V : Env :=
    { binaryEnv 53 (by norm_num) with
      exp := Real.exp
      exp_zero := Real.exp_zero
      exp_nonneg := fun x _ => (Real.exp_pos x).le
      exp_le := fun _ h => Real.exp_le_one_iff.mpr h }
  refine ⟨V, rfl, fun x _ => ?_, C132_defined _ _ _ _ rfl⟩
  have := Real.exp_pos x
  show 31 / 32 * Real.exp x ≤ Real.exp x
  linarith

/-- C133: results do not depend on exponentials of positive numbers. -/
theorem C133_arguments (V V' : Env) (ha : V.toArith = V'.toArith) (hl : V.log = V'.log) (he : ∀ x ≤ 0, V.exp x = V'.exp x) :
    (∀ x, sigmoid V x = sigmoid V' x) ∧ (∀ l v, LogSumExp V l v ↔ LogSumExp V' l v) ∧ (∀ l r, Softmax V l r ↔ Softmax V' l r) := by
  have hr : V.rnd = V'.rnd := by rw [ha]
  have hadd : XF.add V = XF.add V' := by
    funext a b
    cases a <;> cases b <;> simp [XF.add, hr]
  have hlog : XF.log V = XF.log V' := by
    funext x
    simp [XF.log, hl]
  have hm : ∀ (l : List ℝ) (c : ℝ), (∀ a ∈ l, a ≤ c) → ∀ a ∈ l, V.exp (V.rnd (a - c)) = V'.exp (V'.rnd (a - c)) := by
    intro l c hc a hal
    rw [← hr]
    exact he _ (by simpa [V.rnd_zero] using V.mono (sub_nonpos.mpr (hc a hal)))
  have hs : ∀ (l : List ℝ) (c s : ℝ), (∀ a ∈ l, a ≤ c) → (ExpSum V l c s ↔ ExpSum V' l c s) := by
    intro l c s hc
    unfold ExpSum
    rw [List.map_congr_left (hm l c hc), ha]
  refine ⟨fun x => ?_, fun l v => ?_, fun l r => ?_⟩
  · unfold sigmoid
    rw [he _ (min_le_right x 0), he (-|x|) (by simp), hr]
  · unfold LogSumExp
    rw [hadd, hlog]
    refine exists_congr fun c => exists_congr fun s => and_congr_right fun _ => and_congr_right fun h => ?_
    rw [hs l c s h]
  · unfold Softmax
    refine exists_congr fun c => exists_congr fun s => and_congr_right fun _ => and_congr_right fun h => ?_
    rw [hs l c s h, hr, List.map_congr_left]
    intro a hal
    have := hm l c h a hal
    rw [hr] at this
    rw [this]

/-- C133: `logsumexp` of a line has a result for every line that is not empty, and every result is finite. -/
theorem C133_logsumexp (V : Env) (l : List ℝ) (hl : l ≠ []) :
    (∃ v, LogSumExp V l v) ∧ ∀ v, LogSumExp V l v → ∃ r, v = .fin r := by
  constructor
  · obtain ⟨c, _, hc⟩ := Analytic.maxLine_spec l hl
    obtain ⟨s, hs⟩ := exists_summedX V ((l.map fun a => V.exp (V.rnd (a - c))).map XF.fin)
    obtain ⟨r, _, hr⟩ := summedX_val hs fun x hx => by
      obtain ⟨a, _, rfl⟩ := List.mem_map.mp hx
      exact ⟨a, rfl⟩
    rw [List.map_map, show XF.val ∘ XF.fin = id from rfl, List.map_id] at hr
    exact ⟨_, c, r, hc.1, hc.2, hr, rfl⟩
  · rintro v ⟨c, s, h1, h2, h3, rfl⟩
    have := expSum_bounds h1 h2 h3
    refine ⟨_, by rw [XF.log, if_neg (by linarith), if_neg (by linarith)]; rfl⟩

/-- C133: `softmax` of a line has a result for every line that is not empty; all entries of any result are numbers between zero and one,
entries of largest input are positive, and the entries add up to one up to rounding. -/
theorem C133_softmax (V : Env) (l : List ℝ) (hl : l ≠ []) :
    (∃ r, Softmax V l r) ∧ ∀ r, Softmax V l r → ∃ ps : List ℝ, r = ps.map some ∧ ps.length = l.length ∧ (∀ p ∈ ps, 0 ≤ p ∧ p ≤ 1) ∧
      (∀ (i : Nat) (a : ℝ), l[i]? = some a → (∀ b ∈ l, b ≤ a) → ∃ p, ps[i]? = some p ∧ 0 < p) ∧
      (1 - V.u) ≤ (1 + V.u) ^ (l.length - 1) * ps.sum ∧ (1 - V.u) ^ (l.length - 1) * ps.sum ≤ 1 + V.u := by
  constructor
  · obtain ⟨_, c, s, h1, h2, h3, _⟩ := (C133_logsumexp V l hl).1
    exact ⟨_, c, s, h1, h2, h3, rfl⟩
  · rintro r ⟨c, s, h1, h2, h3, rfl⟩
    have hs := expSum_bounds h1 h2 h3
    have hs0 : s ≠ 0 := by linarith
    set e : ℝ → ℝ := fun a => V.exp (V.rnd (a - c)) with he
    have harg : ∀ a ∈ l, V.rnd (a - c) ≤ 0 := fun a ha => by simpa [V.rnd_zero] using V.mono (sub_nonpos.mpr (h2 a ha))
    have hnn : ∀ a ∈ l, 0 ≤ e a := fun a ha => V.exp_nonneg _ (harg a ha)
    have hle : ∀ a ∈ l, e a ≤ 1 := fun a ha => V.exp_le _ (harg a ha)
    refine ⟨l.map fun a => V.rnd (e a / s), ?_, by simp, ?_, ?_, ?_⟩
    · rw [List.map_map]
      refine List.map_congr_left fun a _ => ?_
      rw [if_neg hs0]
      rfl
    · intro p hp
      obtain ⟨a, ha, rfl⟩ := List.mem_map.mp hp
      refine ⟨V.rnd_nonneg (div_nonneg (hnn a ha) (by linarith)), V.rnd_le_one ?_⟩
      rw [div_le_one (by linarith)]
      linarith [hle a ha]
    · intro i a hi hmax
      have hac : a = c := le_antisymm (h2 a (List.mem_of_getElem? hi)) (hmax c h1)
      refine ⟨V.rnd (e a / s), by rw [List.getElem?_map, hi]; rfl, V.rnd_pos ?_⟩
      rw [he, hac]
      dsimp only
      rw [sub_self, V.rnd_zero, V.exp_zero]
      exact div_pos one_pos (by linarith)
    · have hrel : Rel V.toArith (0 + ((l.map e).length - 1)) s (l.map e).sum := by
        refine summed_rel h3 ?_
        rw [List.forall₂_same]
        intro x hx
        obtain ⟨a, ha, rfl⟩ := List.mem_map.mp hx
        exact ⟨hnn a ha, by simp, by simp⟩
      rw [zero_add, List.length_map] at hrel
      obtain ⟨hr0, hr1, hr2⟩ := hrel
      have hb : (1 - V.u) * ((l.map e).sum / s) ≤ (l.map fun a => V.rnd (e a / s)).sum ∧
          (l.map fun a => V.rnd (e a / s)).sum ≤ (1 + V.u) * ((l.map e).sum / s) := by
        have : ∀ l' : List ℝ, (∀ a ∈ l', 0 ≤ e a) → (1 - V.u) * ((l'.map e).sum / s) ≤ (l'.map fun a => V.rnd (e a / s)).sum ∧
            (l'.map fun a => V.rnd (e a / s)).sum ≤ (1 + V.u) * ((l'.map e).sum / s) := by
          intro l' hl'
          induction l' with
          | nil => simp
          | cons a l' ih =>
            obtain ⟨i1, i2⟩ := ih fun b hb => hl' b (List.mem_cons_of_mem _ hb)
            obtain ⟨j1, j2⟩ := rnd_bounds V.toArith (div_nonneg (hl' a (by simp)) (by linarith) : 0 ≤ e a / s)
            simp only [List.map_cons, List.sum_cons, add_div, mul_add]
            exact ⟨add_le_add j1 i1, add_le_add j2 i2⟩
        exact this l hnn
      have hu := V.lt_one
      have hu0 := V.nonneg
      have hspos : 0 < s := by linarith
      constructor
      · have h4 : 1 ≤ (1 + V.u) ^ (l.length - 1) * ((l.map e).sum / s) := by
          rw [← mul_div_assoc, le_div_iff₀ hspos, one_mul]
          exact hr2
        have h5 := mul_le_mul_of_nonneg_left hb.1 (show 0 ≤ (1 + V.u) ^ (l.length - 1) by positivity)
        nlinarith
      · have h4 : (1 - V.u) ^ (l.length - 1) * ((l.map e).sum / s) ≤ 1 := by
          rw [← mul_div_assoc, div_le_iff₀ hspos, one_mul]
          exact hr1
        have h5 := mul_le_mul_of_nonneg_left hb.2 (show 0 ≤ (1 - V.u) ^ (l.length - 1) from pow_nonneg (by linarith) _)
        nlinarith

/-- C133: computed probabilities of the sigmoid are between zero and one for every score. -/
theorem C133_sigmoid (V : Env) (x : ℝ) : 0 ≤ sigmoid V x ∧ sigmoid V x ≤ 1 := sigmoid_range x

/-- C133: in exact arithmetic the results are those of the models over the real numbers. -/
theorem C133_exact (l : List ℝ) (hl : l ≠ []) :
    (∀ v, LogSumExp exactEnv l v ↔ ∃ r, v = .fin r ∧ Analytic.logsumexpLine l = .ok r) ∧
    (∀ r, Softmax exactEnv l r ↔ ∃ ps, r = ps.map some ∧ Analytic.softmaxLine l = .ok ps) := by
  obtain ⟨c, hc, hmax⟩ := Analytic.maxLine_spec l hl
  have huniq : ∀ c', c' ∈ l → (∀ a ∈ l, a ≤ c') → c' = c := fun c' h1 h2 => le_antisymm (hmax.2 c' h1) (h2 c hmax.1)
  have hsum : ∀ s, ExpSum exactEnv l c s ↔ s = (l.map fun a => Real.exp (a - c)).sum := fun s => summed_exact
  have hpos : 1 ≤ (l.map fun a => Real.exp (a - c)).sum := expSum_bounds hmax.1 hmax.2 ((hsum _).mpr rfl)
  constructor
  · intro v
    unfold Analytic.logsumexpLine
    rw [hc, Res.bind_ok]
    constructor
    · rintro ⟨c', s, h1, h2, h3, rfl⟩
      obtain rfl := huniq c' h1 h2
      rw [(hsum s).mp h3]
      refine ⟨_, ?_, rfl⟩
      rw [XF.log, if_neg (by linarith), if_neg (by linarith)]
      rfl
    · rintro ⟨r, rfl, h⟩
      refine ⟨c, _, hmax.1, hmax.2, (hsum _).mpr rfl, ?_⟩
      rw [← Res.ok.inj h, XF.log, if_neg (by linarith), if_neg (by linarith)]
      rfl
  · intro r
    unfold Analytic.softmaxLine
    rw [hc, Res.bind_ok]
    have hmap : (l.map fun a => if (l.map fun a => Real.exp (a - c)).sum = 0 then none
        else some (exactEnv.rnd (exactEnv.exp (exactEnv.rnd (a - c)) / (l.map fun a => Real.exp (a - c)).sum))) =
        ((l.map fun a => Real.exp (a - c)).map fun a => a / (l.map fun a => Real.exp (a - c)).sum).map some := by
      rw [List.map_map, List.map_map]
      refine List.map_congr_left fun a _ => ?_
      rw [if_neg (by linarith)]
      rfl
    constructor
    · rintro ⟨c', s, h1, h2, h3, rfl⟩
      obtain rfl := huniq c' h1 h2
      rw [(hsum s).mp h3]
      exact ⟨_, hmap, rfl⟩
    · rintro ⟨ps, rfl, h⟩
      refine ⟨c, _, hmax.1, hmax.2, (hsum _).mpr rfl, ?_⟩
      rw [hmap, ← Res.ok.inj h]

/-- Example for `C133_softmax`, `C133_logsumexp`: a line whose exponentials would overflow, and one that agrees with the library except for
positive arguments. -/
example : (∃ r, Softmax (binaryEnv 53 (by norm_num)) [1000, 2000, -3000] r) ∧ (∃ v, LogSumExp (binaryEnv 53 (by norm_num)) [1000, 2000, -3000] v) ∧
    ∃ V : Env, V.toArith = exactEnv.toArith ∧ V.log = exactEnv.log ∧ (∀ x ≤ 0, exactEnv.exp x = V.exp x) ∧ V.exp 1 ≠ exactEnv.exp 1 := by
  refine ⟨(C133_softmax _ _ (by simp)).1, (C133_logsumexp _ _ (by simp)).1, ?_⟩
  refine ⟨{ exactEnv with exp := fun x => if x ≤ 0 then Real.exp x else 0, exp_zero := by simp, exp_nonneg := ?_, exp_le := ?_ }, rfl, rfl, ?_, ?_⟩
  · intro x h
    rw [if_pos h]
    exact (Real.exp_pos x).le
  · intro x h
    rw [if_pos h]
    exact Real.exp_le_one_iff.mpr h
  · intro x h
    dsimp only
    rw [if_pos h]
    rfl
  · dsimp only
    rw [if_neg (by norm_num)]
    exact (Real.exp_pos 1).ne

/-- C134: the softmax loss is NaN exactly if for some sample the exponentials of all scores, taken after subtracting the largest score of
all samples, are computed as zero; otherwise infinite exactly if that happens for the score of the label of some sample. -/
theorem C134_loss (V : Env) (xw : List (List ℝ)) (ys : List Nat) (reg : ℝ) (v : XF) (h : SoftmaxEvaluate V xw ys reg v) (c : ℝ)
    (hc : c ∈ xw.flatten) (hmax : ∀ a ∈ xw.flatten, a ≤ c) :
    let lost := ∃ r ∈ xw, ∀ a ∈ r, V.exp (V.rnd (a - c)) = 0
    let wrong := ∃ q ∈ xw.zip ys, ∃ a, q.1[q.2]? = some a ∧ V.exp (V.rnd (a - c)) = 0
    (v = .nan ↔ lost) ∧ (v = .pinf ↔ ¬ lost ∧ wrong) ∧ ((∃ x, v = .fin x) ↔ ¬ lost ∧ ¬ wrong) := by
  intro lost wrong
  obtain ⟨hlen, c', qs, s, h1, h2, h3, h4, rfl⟩ := h
  obtain rfl : c' = c := le_antisymm (hmax c' h1) (h2 c hc)
  have hrow : ∀ q ∈ xw.zip ys, ∀ b ∈ q.1, b ≤ c' := fun q hq b hb => hmax b (List.mem_flatten.mpr ⟨q.1, (List.of_mem_zip hq).1, hb⟩)
  have hmem : ∀ t ∈ qs, ∃ q ∈ xw.zip ys, ∃ a u, q.1[q.2]? = some a ∧ ExpSum V q.1 c' u ∧ t = logQuotient V (V.exp (V.rnd (a - c'))) u := by
    intro t ht
    obtain ⟨i, hi, rfl⟩ := List.mem_iff_getElem.mp ht
    have hi' : i < (xw.zip ys).length := by rw [h3.length_eq]; exact hi
    exact ⟨_, List.getElem_mem hi', List.forall₂_iff_get.mp h3 |>.2 i hi' hi⟩
  have hmem' : ∀ q ∈ xw.zip ys, ∃ t ∈ qs, ∃ a u, q.1[q.2]? = some a ∧ ExpSum V q.1 c' u ∧ t = logQuotient V (V.exp (V.rnd (a - c'))) u := by
    intro q hq
    obtain ⟨i, hi, rfl⟩ := List.mem_iff_getElem.mp hq
    have hi' : i < qs.length := by rw [← h3.length_eq]; exact hi
    exact ⟨_, List.getElem_mem hi', List.forall₂_iff_get.mp h3 |>.2 i hi hi'⟩
  have hzip : ∀ r ∈ xw, ∃ k, (r, k) ∈ xw.zip ys := by
    intro r hr
    obtain ⟨i, hi, rfl⟩ := List.mem_iff_getElem.mp hr
    refine ⟨ys[i]'(by omega), ?_⟩
    rw [List.mem_iff_getElem]
    exact ⟨i, by simp; omega, by simp⟩
  have hlost : XF.nan ∈ qs ↔ lost := by
    constructor
    · intro hn
      obtain ⟨q, hq, a, u, e1, e2, e3⟩ := hmem _ hn
      rcases logQuotient_cases (hrow q hq) (List.mem_of_getElem? e1) e2 with ⟨c1, _⟩ | ⟨_, _, c2⟩ | ⟨_, x, c2⟩
      · exact ⟨q.1, (List.of_mem_zip hq).1, c1⟩
      · rw [c2] at e3
        cases e3
      · rw [c2] at e3
        cases e3
    · rintro ⟨r, hr, hz⟩
      obtain ⟨k, hk⟩ := hzip r hr
      obtain ⟨t, ht, a, u, e1, e2, e3⟩ := hmem' _ hk
      rcases logQuotient_cases (hrow _ hk) (List.mem_of_getElem? e1) e2 with ⟨_, c1⟩ | ⟨⟨b, hb, hb0⟩, _, _⟩ | ⟨c2, _⟩
      · rwa [e3, c1] at ht
      · exact absurd (hz b hb) hb0
      · exact absurd (hz a (List.mem_of_getElem? e1)) c2
  by_cases hl : lost
  · rw [summedX_nan h4 (hlost.mpr hl)]
    simp [hl, XF.neg, XF.divNat, XF.add]
  · have hall : ∀ t ∈ qs, t = .ninf ∨ ∃ x, t = .fin x := by
      intro t ht
      obtain ⟨q, hq, a, u, e1, e2, rfl⟩ := hmem t ht
      rcases logQuotient_cases (hrow q hq) (List.mem_of_getElem? e1) e2 with ⟨c1, _⟩ | ⟨_, _, c2⟩ | ⟨_, x, c2⟩
      · exact absurd ⟨q.1, (List.of_mem_zip hq).1, c1⟩ hl
      · exact Or.inl c2
      · exact Or.inr ⟨x, c2⟩
    have hw : XF.ninf ∈ qs ↔ wrong := by
      constructor
      · intro hn
        obtain ⟨q, hq, a, u, e1, e2, e3⟩ := hmem _ hn
        rcases logQuotient_cases (hrow q hq) (List.mem_of_getElem? e1) e2 with ⟨_, c2⟩ | ⟨_, c1, _⟩ | ⟨_, x, c2⟩
        · rw [c2] at e3
          cases e3
        · exact ⟨q, hq, a, e1, c1⟩
        · rw [c2] at e3
          cases e3
      · rintro ⟨q, hq, a, ha, hz⟩
        obtain ⟨t, ht, a', u, e1, e2, e3⟩ := hmem' q hq
        obtain rfl : a' = a := Option.some.inj (e1.symm.trans ha)
        rcases logQuotient_cases (hrow _ hq) (List.mem_of_getElem? e1) e2 with ⟨c1, _⟩ | ⟨_, _, c2⟩ | ⟨c2, _⟩
        · exact absurd ⟨q.1, (List.of_mem_zip hq).1, c1⟩ hl
        · rwa [e3, c2] at ht
        · exact absurd hz c2
    rcases summedX_ninf h4 hall with ⟨m, rfl⟩ | ⟨m, x, rfl⟩
    · simp [hl, hw.mp m, XF.neg, XF.divNat, XF.add]
    · rw [hw] at m
      simp [hl, m, XF.neg, XF.divNat, XF.add]

/-- C134: a possible result exists if there is a sample and all labels are column numbers. -/
theorem C134_defined (V : Env) (xw : List (List ℝ)) (ys : List Nat) (reg : ℝ) (hne : xw ≠ [])
    (h : List.Forall₂ (fun (r : List ℝ) (k : Nat) => k < r.length) xw ys) : ∃ v, SoftmaxEvaluate V xw ys reg v := by
  have hfl : xw.flatten ≠ [] := by
    cases h with
    | nil => exact absurd rfl hne
    | @cons r k _ _ hk _ =>
      cases r with
      | nil => exact absurd hk (Nat.not_lt_zero _)
      | cons => simp
  obtain ⟨c, -, hc⟩ := Analytic.maxLine_spec xw.flatten hfl
  have : ∃ qs, List.Forall₂ (fun (q : List ℝ × Nat) (t : XF) => ∃ a u, q.1[q.2]? = some a ∧ ExpSum V q.1 c u ∧
      t = logQuotient V (V.exp (V.rnd (a - c))) u) (xw.zip ys) qs := by
    clear hne hfl hc
    induction h with
    | nil => exact ⟨[], .nil⟩
    | @cons r k xw ys hk _ ih =>
      obtain ⟨qs, hqs⟩ := ih
      obtain ⟨u, hu⟩ := exists_summed V (r.map fun a => V.exp (V.rnd (a - c)))
      exact ⟨_, .cons ⟨r[k], u, List.getElem?_eq_getElem hk, hu, rfl⟩ hqs⟩
  obtain ⟨qs, hqs⟩ := this
  obtain ⟨s, hs⟩ := exists_summedX V qs
  exact ⟨_, h.length_eq, c, qs, s, hc.1, hc.2, hqs, hs, rfl⟩

/-- C134: subtracting the largest score of each sample instead, as `softmax` and `logsumexp` do, makes the first case impossible: the largest
score of the sample then has the exponential one. -/
theorem C134_rowwise (V : Env) (r : List ℝ) (c : ℝ) (hc : c ∈ r) : ¬ ∀ a ∈ r, V.exp (V.rnd (a - c)) = 0 := by
  intro h
  have := h c hc
  rw [sub_self, V.rnd_zero, V.exp_zero] at this
  exact one_ne_zero this

/-- Example for `C134_loss`: `double` arithmetic with exponentials that are zero below -745. The second sample alone has a finite loss,
together with the first one the loss is NaN. -/
example : ∃ V : Env, V.toArith = binary 53 (by norm_num) ∧ (∀ x, -745 ≤ x → x ≤ 0 → V.exp x = V.rnd (Real.exp x)) ∧
    SoftmaxEvaluate V [[1000, 0], [-8, 8]] [0, 1] 0 .nan ∧ ∃ x, SoftmaxEvaluate V [[-8, 8]] [1] 0 (.fin x) := by
  let V : Env :=
    { binaryEnv 53 (by norm_num) with
      exp := fun x => if x < -745 then 0 else (binaryEnv 53 (by norm_num)).exp x
      exp_zero := by
        rw [if_neg (by norm_num)]
        exact (binaryEnv 53 (by norm_num)).exp_zero
      exp_nonneg := fun x hx => by
        split
        · exact le_rfl
        · exact (binaryEnv 53 (by norm_num)).exp_nonneg x hx
      exp_le := fun x hx => by
        split
        · exact zero_le_one
        · exact (binaryEnv 53 (by norm_num)).exp_le x hx }
  have hexp : ∀ x, x < -745 → V.exp x = 0 := fun x hx => if_pos hx
  have hexp' : ∀ x, -745 ≤ x → V.exp x = V.rnd (Real.exp x) := fun x hx => if_neg (not_lt.mpr hx)
  have herr : ∀ x, |V.rnd x - x| ≤ 1 / 8 * |x| := fun x => (V.err x).trans (mul_le_mul_of_nonneg_right (by
    show (2⁻¹ : ℝ) ^ 53 ≤ 1 / 8
    norm_num) (abs_nonneg x))
  refine ⟨V, rfl, fun x h1 _ => hexp' x h1, ?_, ?_⟩
  · obtain ⟨v, hv⟩ := C134_defined V [[1000, 0], [-8, 8]] [0, 1] 0 (by simp) (.cons (by simp) (.cons (by simp) .nil))
    have h := (C134_loss V _ _ 0 v hv 1000 (by simp) (by simp; norm_num)).1
    have : v = .nan := h.mpr ⟨[-8, 8], by simp, fun a ha => hexp _ (by
      have e := (abs_le.mp (herr (a - 1000))).2
      rcases List.mem_cons.mp ha with rfl | ha
      · norm_num [abs_of_neg] at e ⊢
        linarith
      · obtain rfl : a = 8 := by simpa using ha
        norm_num [abs_of_neg] at e ⊢
        linarith)⟩
    rwa [this] at hv
  · obtain ⟨v, hv⟩ := C134_defined V [[-8, 8]] [1] 0 (by simp) (.cons (by simp) .nil)
    have h := (C134_loss V _ _ 0 v hv 8 (by simp) (by simp)).2.2
    have hx : ∃ x, v = .fin x := by
      refine h.mpr ⟨?_, ?_⟩
      · rintro ⟨r, hr, h0⟩
        obtain rfl : r = [-8, 8] := by simpa using hr
        exact C134_rowwise V _ 8 (by simp) h0
      · rintro ⟨q, hq, a, ha, h0⟩
        obtain rfl : q = ([-8, 8], 1) := by simpa using hq
        obtain rfl : a = 8 := by simpa using ha.symm
        rw [sub_self, V.rnd_zero, V.exp_zero] at h0
        exact one_ne_zero h0
    obtain ⟨x, rfl⟩ := hx
    exact ⟨x, hv⟩

/-- C134: in exact arithmetic the loss is that of the model over the real numbers. -/
theorem C134_exact (lambda : ℝ) (X W xw : DMat ℝ) (y : List ℝ) (ks : List Nat) (v : XF) (hxw : Loss.mulMat X W = .ok xw)
    (hne : xw.rows.flatten ≠ []) (hlen : xw.rows.length = ks.length) (hy : List.Forall₂ (fun a k => Loss.classIndex a = .ok k) y ks) :
    SoftmaxEvaluate exactEnv xw.rows ks (Loss.gramSum W / ((X.nrows : ℝ) * 2) * lambda) v ↔
      ∃ r, v = .fin r ∧ Loss.softmaxEvaluate lambda X y W = .ok r := by
  have hn : xw.rows.length = X.nrows := by
    unfold Loss.mulMat at hxw
    split at hxw
    · rw [← Res.ok.inj hxw]
      simp [DMat.nrows]
    · cases hxw
  obtain ⟨c, hc, hmax⟩ := Analytic.maxLine_spec _ hne
  set e : ℝ → ℝ := fun a => Real.exp (a - c) with he
  have hsum : ∀ (r : List ℝ) (s : ℝ), ExpSum exactEnv r c s ↔ s = (r.map e).sum := fun r s => summed_exact
  have hquot : ∀ (r : List ℝ) (a : ℝ), a ∈ r → logQuotient exactEnv (e a) (r.map e).sum = .fin (Real.log (e a / (r.map e).sum)) := by
    intro r a ha
    have hpos : 0 < (r.map e).sum := by
      rw [Analytic.sum_exp_sub]
      exact div_pos (Analytic.sumExp_pos r (List.ne_nil_of_mem ha)) (Real.exp_pos c)
    have hq : 0 < e a / (r.map e).sum := div_pos (Real.exp_pos _) hpos
    show (if _ then _ else XF.log exactEnv (e a / (r.map e).sum)) = _
    rw [if_neg hpos.ne', XF.log, if_neg hq.ne', if_neg (not_lt.mpr hq.le)]
    rfl
  -- the rows on both sides
  have key : ∀ (rows : List (List ℝ)) (y : List ℝ) (ks : List Nat), rows.length = ks.length →
      List.Forall₂ (fun a k => Loss.classIndex a = .ok k) y ks → ∀ qs : List XF,
      (List.Forall₂ (fun (q : List ℝ × Nat) (t : XF) => ∃ a u, q.1[q.2]? = some a ∧ ExpSum exactEnv q.1 c u ∧
        t = logQuotient exactEnv (exactEnv.exp (exactEnv.rnd (a - c))) u) (rows.zip ks) qs ↔
      ∃ sel, Loss.selectLabel (rows.map fun r => r.map e) y = .ok sel ∧
        qs = (List.zipWith (fun a s => Real.log (a / s)) sel ((rows.map fun r => r.map e).map List.sum)).map XF.fin) := by
    intro rows
    induction rows with
    | nil =>
      intro y ks hl hyk qs
      obtain rfl : ks = [] := List.length_eq_zero_iff.mp hl.symm
      simp [Loss.selectLabel]
    | cons r rows ih =>
      intro y ks hl hyk qs
      cases hyk with
      | nil => simp at hl
      | @cons a k y ks hak hyk =>
        have ih' := ih y ks (by simpa using hl) hyk
        rw [List.zip_cons_cons, List.forall₂_cons_left_iff]
        simp only [List.map_cons, Loss.selectLabel, hak, Res.bind_ok]
        constructor
        · rintro ⟨t, qs', ⟨b, u, hb, hu, rfl⟩, hqs, rfl⟩
          obtain ⟨sel, hsel, rfl⟩ := (ih' qs').mp hqs
          have hread : readAt (r.map e) k = .ok (e b) := by
            unfold readAt
            rw [List.getElem?_map, hb]
            rfl
          refine ⟨e b :: sel, by rw [hread, Res.bind_ok, hsel, Res.bind_ok], ?_⟩
          rw [(hsum r u).mp hu]
          simp only [List.zipWith_cons_cons, List.map_cons]
          congr 1
          exact hquot r b (List.mem_of_getElem? hb)
        · rintro ⟨sel, hsel, rfl⟩
          rw [Res.bind_eq_ok] at hsel
          obtain ⟨eb, hread, hsel⟩ := hsel
          rw [Res.bind_eq_ok] at hsel
          obtain ⟨sel', hsel', hs⟩ := hsel
          obtain rfl := Res.ok.inj hs
          have : ∃ b, r[k]? = some b ∧ eb = e b := by
            unfold readAt at hread
            rw [List.getElem?_map] at hread
            cases hb : r[k]? with
            | none =>
              rw [hb] at hread
              cases hread
            | some b =>
              rw [hb] at hread
              exact ⟨b, rfl, (Res.ok.inj hread).symm⟩
          obtain ⟨b, hb, rfl⟩ := this
          refine ⟨_, _, ⟨b, _, hb, (hsum r _).mpr rfl, rfl⟩, (ih' _).mpr ⟨sel', hsel', rfl⟩, ?_⟩
          simp only [List.zipWith_cons_cons, List.map_cons]
          congr 1
          exact (hquot r b (List.mem_of_getElem? hb)).symm
  have hval : ∀ l : List ℝ, (l.map XF.fin).map XF.val = l := by
    intro l
    rw [List.map_map]
    exact List.map_id _
  unfold Loss.softmaxEvaluate Loss.expScores
  simp only [hxw, Res.bind_ok, hc]
  constructor
  · rintro ⟨_, c', qs, s, h1, h2, h3, h4, rfl⟩
    obtain rfl : c' = c := le_antisymm (hmax.2 c' h1) (h2 c hmax.1)
    obtain ⟨sel, hsel, rfl⟩ := (key xw.rows y ks hlen hy qs).mp h3
    obtain ⟨r, rfl, hr⟩ := summedX_val h4 fun x hx => by
      obtain ⟨a, _, rfl⟩ := List.mem_map.mp hx
      exact ⟨a, rfl⟩
    rw [hval] at hr
    refine ⟨_, rfl, ?_⟩
    rw [hsel, Res.bind_ok, summed_exact.mp hr, ← hlen, hn]
    rfl
  · rintro ⟨r, rfl, h⟩
    rw [Res.bind_eq_ok] at h
    obtain ⟨sel, hsel, h⟩ := h
    refine ⟨hlen, c, _, _, hmax.1, hmax.2, (key xw.rows y ks hlen hy _).mpr ⟨sel, hsel, rfl⟩,
      summedX_of_summed (V := exactEnv) (summed_exact.mpr rfl), ?_⟩
    rw [← Res.ok.inj h, ← hlen, hn]
    rfl

/-- Example for `C134_exact`: one sample with label 1 and two classes. -/
example : Loss.mulMat (⟨1, [[2]]⟩ : DMat ℝ) ⟨2, [[3, 4]]⟩ = .ok ⟨2, [[6, 8]]⟩ ∧ Loss.classIndex 1 = .ok 1 := by
  constructor
  · norm_num [Loss.mulMat, DMat.nrows, DMat.cols, DMat.col, Loss.dotL, List.range_succ]
    constructor <;> norm_num [List.filterMap]
  · norm_num [Loss.classIndex]

end OpenML
