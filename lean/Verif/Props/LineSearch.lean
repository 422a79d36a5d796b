import Verif.Lemmas.LineSearch
import Mathlib.Data.Rat.Floor

/-!
# Line searches (C53)
-/

namespace OpenML

open SGD Spec LBFGS

set_option linter.unusedSectionVars false

section
variable {α : Type} [Field α] [LinearOrder α] [IsStrictOrderedRing α]

/-- The factors of the backtracking search are positive. -/
def Spec.Factors (p : SearchParams α) : Prop := 0 < p.dec ∧ 0 < p.inc

/-- C53: a positive return value of either search: the point is `start + step * direction`, the loss and the gradient are those of
that point, and the selected condition holds there. It is the number of points tried, which is at most the maximum (or one); the
first step tried is the given one, all steps are positive, and all points but the last one violate the condition and have steps
between the minimum and the maximum. -/
theorem C53_success (policy : Policy) (p : SearchParams α) (hf : Factors p) (loss : LossFn α (List α)) (X : DMat α) (y : List α)
    (fx : α) (g d : List α) (step : α) (xp : List α) (r : Found α)
    (h : search policy p loss X y fx g d step xp = .ok (some r)) :
    0 < step ∧ (List.zipWith (· * ·) d g).sum ≤ 0 ∧ r.x = List.zipWith (fun a b => a + r.step * b) xp d ∧
    loss.evaluate X y r.x = .ok r.fx ∧ loss.gradient X y r.x = .ok r.g ∧ 0 < r.step ∧
    Condition p.condition p.ftol p.wolfe fx (List.zipWith (· * ·) d g).sum ⟨r.step, r.fx, (List.zipWith (· * ·) d r.g).sum⟩ ∧
    1 ≤ r.count ∧ r.count ≤ max 1 p.maxLinesearch ∧
    ∃ pre e, r.count = (pre ++ [e]).length ∧ (pre ++ [e]).head?.map Trial.t = some step ∧ e.t = r.step ∧
      (∀ a ∈ pre ++ [e], 0 < a.t ∧ IsTrial (loss.evaluate X y) (loss.gradient X y) xp d a) ∧
      (∀ a ∈ pre, ¬ Condition p.condition p.ftol p.wolfe fx (List.zipWith (· * ·) d g).sum a ∧
        p.minStep ≤ a.t ∧ a.t ≤ p.maxStep) := by
  unfold search at h
  split at h
  · cases h
  · rename_i hs
    rw [not_le] at hs
    obtain ⟨m0, hm0, h⟩ := Res.bind_eq_ok.mp h
    obtain ⟨-, rfl⟩ := dot_eq_ok.mp hm0
    split at h
    · cases h
    · rename_i hm
      rw [gt_iff_lt, not_lt] at hm
      obtain ⟨pre, e, hrun, hc, hn, h1, h2, h3, h4, h5, h6, h7⟩ := searchLoop_run _ _ _ _ _ _ _ hm _ _ _ _ _ _ _ _ h
      obtain ⟨t1, t2, t3, t4⟩ := hrun.trials
      have hpos := hrun.pos hf.1 hf.2 le_rfl (by simp) hs
      have he : (⟨r.step, r.fx, (List.zipWith (· * ·) d r.g).sum⟩ : Trial α) = e := by
        obtain ⟨t, f, s⟩ := e
        simp only at h1 h2 h4
        rw [h1, h2, ← h4]
        rfl
      refine ⟨hs, hm, h6, h7, h3, by rw [h1]; exact hpos e (by simp), by rw [he]; exact t3, by omega, by omega, pre, e, ?_, t4,
        h1.symm, ?_, fun a ha => (t1 a ha).2⟩
      · rw [hc, List.length_append]
        simp
      · intro a ha
        refine ⟨hpos a ha, ?_⟩
        rcases List.mem_append.mp ha with ha | ha
        · exact (t1 a ha).1
        · rw [List.mem_singleton] at ha
          rw [ha]
          exact t2

/-- C53: the return value -1 means that the step is not positive, or that the direction is one of ascent, or that none of the points
tried satisfies the condition, the last of them with a step out of range or after the maximal number of points. -/
theorem C53_failure (policy : Policy) (p : SearchParams α) (loss : LossFn α (List α)) (X : DMat α) (y : List α) (fx : α)
    (g d : List α) (step : α) (xp : List α) (h : search policy p loss X y fx g d step xp = .ok none) :
    step ≤ 0 ∨ 0 < (List.zipWith (· * ·) d g).sum ∨
    ∃ pre e, (pre ++ [e]).head?.map Trial.t = some step ∧
      (∀ a ∈ pre ++ [e], IsTrial (loss.evaluate X y) (loss.gradient X y) xp d a ∧
        ¬ Condition p.condition p.ftol p.wolfe fx (List.zipWith (· * ·) d g).sum a) ∧
      (e.t < p.minStep ∨ p.maxStep < e.t ∨ (pre ++ [e]).length = max 1 p.maxLinesearch) := by
  unfold search at h
  split at h
  · exact Or.inl ‹_›
  · obtain ⟨m0, hm0, h⟩ := Res.bind_eq_ok.mp h
    obtain ⟨-, rfl⟩ := dot_eq_ok.mp hm0
    split at h
    · exact Or.inr (Or.inl ‹_›)
    · rename_i hm
      rw [gt_iff_lt, not_lt] at hm
      obtain ⟨pre, e, h1, h2, h3, h4⟩ := searchLoop_none _ _ _ _ _ _ _ hm _ _ _ _ _ _ _ h
      refine Or.inr (Or.inr ⟨pre, e, h3, h1, ?_⟩)
      rcases h4 with h4 | h4 | h4
      · exact Or.inl h4
      · exact Or.inr (Or.inl h4)
      · refine Or.inr (Or.inr ?_)
        rw [List.length_append, h4]
        simp only [List.length_singleton]
        omega

/-- C53: each step of a successful backtracking search is the one before, times the larger factor if that was too short and times
the smaller one otherwise. -/
theorem C53_backtracking_steps (p : SearchParams α) (loss : LossFn α (List α)) (X : DMat α) (y : List α) (fx : α) (g d : List α)
    (step : α) (xp : List α) (r : Found α) (h : search .backtracking p loss X y fx g d step xp = .ok (some r)) :
    ∃ pre e, r.count = (pre ++ [e]).length ∧ (pre ++ [e]).head?.map Trial.t = some step ∧ e.t = r.step ∧
      (∀ a ∈ pre ++ [e], IsTrial (loss.evaluate X y) (loss.gradient X y) xp d a) ∧
      List.IsChain (fun a b : Trial α =>
        (TooShort p.condition p.ftol p.wolfe fx (List.zipWith (· * ·) d g).sum a → b.t = a.t * p.inc) ∧
        (¬ TooShort p.condition p.ftol p.wolfe fx (List.zipWith (· * ·) d g).sum a → b.t = a.t * p.dec)) (pre ++ [e]) := by
  unfold search at h
  split at h
  · cases h
  · obtain ⟨m0, hm0, h⟩ := Res.bind_eq_ok.mp h
    obtain ⟨-, rfl⟩ := dot_eq_ok.mp hm0
    split at h
    · cases h
    · rename_i hm
      rw [gt_iff_lt, not_lt] at hm
      obtain ⟨pre, e, hrun, hc, hn, h1, -⟩ := searchLoop_run _ _ _ _ _ _ _ hm _ _ _ _ _ _ _ _ h
      obtain ⟨t1, t2, -, t4⟩ := hrun.trials
      refine ⟨pre, e, by rw [hc, List.length_append]; simp, t4, h1.symm, fun a ha => ?_, hrun.backtracking⟩
      rcases List.mem_append.mp ha with ha | ha
      · exact (t1 a ha).1
      · rw [List.mem_singleton] at ha
        rw [ha]
        exact t2

/-- C53: in a successful bracketing search each step is longer than all earlier ones that were too short and shorter than all other
earlier ones. -/
theorem C53_bracketing_steps (p : SearchParams α) (loss : LossFn α (List α)) (X : DMat α) (y : List α) (fx : α) (g d : List α)
    (step : α) (xp : List α) (r : Found α) (h : search .bracketing p loss X y fx g d step xp = .ok (some r)) :
    ∃ pre e, r.count = (pre ++ [e]).length ∧ (pre ++ [e]).head?.map Trial.t = some step ∧ e.t = r.step ∧
      (∀ a ∈ pre ++ [e], IsTrial (loss.evaluate X y) (loss.gradient X y) xp d a) ∧
      List.Pairwise (fun a b : Trial α =>
        (TooShort p.condition p.ftol p.wolfe fx (List.zipWith (· * ·) d g).sum a → a.t < b.t) ∧
        (¬ TooShort p.condition p.ftol p.wolfe fx (List.zipWith (· * ·) d g).sum a → b.t < a.t)) (pre ++ [e]) := by
  unfold search at h
  split at h
  · cases h
  · rename_i hs
    rw [not_le] at hs
    obtain ⟨m0, hm0, h⟩ := Res.bind_eq_ok.mp h
    obtain ⟨-, rfl⟩ := dot_eq_ok.mp hm0
    split at h
    · cases h
    · rename_i hm
      rw [gt_iff_lt, not_lt] at hm
      obtain ⟨pre, e, hrun, hc, hn, h1, -⟩ := searchLoop_run _ _ _ _ _ _ _ hm _ _ _ _ _ _ _ _ h
      obtain ⟨t1, t2, -, t4⟩ := hrun.trials
      refine ⟨pre, e, by rw [hc, List.length_append]; simp, t4, h1.symm, fun a ha => ?_, (hrun.bracketing le_rfl hs (by simp)).2⟩
      rcases List.mem_append.mp ha with ha | ha
      · exact (t1 a ha).1
      · rw [List.mem_singleton] at ha
        rw [ha]
        exact t2

theorem armijo_loop (p : SearchParams α) (hc : p.condition = "ARMIJO") (loss : LossFn α (List α)) (X : DMat α) (y : List α)
    (f0 m0 : α) (hm0 : m0 ≤ 0) (xp d : List α) (hl : xp.length = d.length) (f : α → α)
    (hev : ∀ t, loss.evaluate X y (List.zipWith (fun a b => a + t * b) xp d) = .ok (f t))
    (hgr : ∀ t, ∃ g, loss.gradient X y (List.zipWith (fun a b => a + t * b) xp d) = .ok g)
    (m n count : Nat) (step lo : α) (hi : Option α) (hmn : m ≤ n)
    (hbad : ∀ i < m, f0 + p.ftol * (step * p.dec ^ i) * m0 < f (step * p.dec ^ i) ∧ p.minStep ≤ step * p.dec ^ i ∧
      step * p.dec ^ i ≤ p.maxStep)
    (hgood : f (step * p.dec ^ m) ≤ f0 + p.ftol * (step * p.dec ^ m) * m0) :
    ∃ r, searchLoop .backtracking p loss X y f0 m0 xp d n count step lo hi = .ok (some r) ∧ r.count = count + m + 1 ∧
      r.step = step * p.dec ^ m := by
  have hprobe : ∀ c t, ∃ g, probe p loss X y f0 m0 xp d c t =
      .ok (if f0 + p.ftol * t * m0 < f t then .shrink else .accept,
        ⟨c + 1, List.zipWith (fun a b => a + t * b) xp d, f t, g, t⟩) := by
    intro c t
    obtain ⟨g, hg⟩ := hgr t
    refine ⟨g, ?_⟩
    unfold probe
    rw [addV_eq_ok.mpr ⟨by rw [List.length_map, hl], rfl⟩, Res.bind_ok, zipWith_step, hev, Res.bind_ok, hg, Res.bind_ok, verdict,
      show t * (p.ftol * m0) = p.ftol * t * m0 by ring]
    by_cases h : f0 + p.ftol * t * m0 < f t
    · rw [if_pos h, if_pos h]
      rfl
    · rw [if_neg h, if_neg h, if_pos hc]
      rfl
  induction m generalizing n count step lo hi with
  | zero =>
    simp only [pow_zero, mul_one] at hgood ⊢
    obtain ⟨g, hg⟩ := hprobe count step
    rw [if_neg (not_lt.mpr hgood)] at hg
    cases n with
    | zero => exact ⟨_, by rw [searchLoop, hg, Res.bind_ok, if_pos rfl], rfl, rfl⟩
    | succ n => exact ⟨_, by rw [searchLoop, hg, Res.bind_ok, if_pos rfl], rfl, rfl⟩
  | succ m ih =>
    obtain ⟨n, rfl⟩ : ∃ n', n = n' + 1 := ⟨n - 1, by omega⟩
    have h0 := hbad 0 (by omega)
    simp only [pow_zero, mul_one] at h0
    obtain ⟨g, hg⟩ := hprobe count step
    rw [if_pos h0.1] at hg
    have hpow : ∀ i, step * p.dec * p.dec ^ i = step * p.dec ^ (i + 1) := fun i => by ring
    obtain ⟨r, hr, hrc, hrs⟩ := ih n (count + 1) (step * p.dec) lo hi (by omega)
      (fun i hi => by
        rw [hpow]
        exact hbad (i + 1) (by omega))
      (by rw [hpow]; exact hgood)
    refine ⟨r, ?_, by rw [hrc]; omega, by rw [hrs, hpow]⟩
    rw [searchLoop, hg, Res.bind_ok, if_neg (by simp), if_neg (not_lt.mpr h0.2.1), if_neg (not_lt.mpr h0.2.2)]
    exact hr

/-- C53: with the Armijo condition the backtracking search returns the first of the steps `step`, `step * dec`, `step * dec ^ 2`, …
at which the condition holds, if it is reached within the maximal number of points and the range of steps. -/
theorem C53_armijo_first (p : SearchParams α) (hc : p.condition = "ARMIJO") (loss : LossFn α (List α)) (X : DMat α) (y : List α)
    (fx : α) (g d : List α) (step : α) (hs : 0 < step) (xp : List α) (hl : xp.length = d.length) (hg : d.length = g.length)
    (hm0 : (List.zipWith (· * ·) d g).sum ≤ 0) (f : α → α)
    (hev : ∀ t, loss.evaluate X y (List.zipWith (fun a b => a + t * b) xp d) = .ok (f t))
    (hgr : ∀ t, ∃ g, loss.gradient X y (List.zipWith (fun a b => a + t * b) xp d) = .ok g)
    (m : Nat) (hmn : m + 1 ≤ max 1 p.maxLinesearch)
    (hbad : ∀ i < m, fx + p.ftol * (step * p.dec ^ i) * (List.zipWith (· * ·) d g).sum < f (step * p.dec ^ i) ∧
      p.minStep ≤ step * p.dec ^ i ∧ step * p.dec ^ i ≤ p.maxStep)
    (hgood : f (step * p.dec ^ m) ≤ fx + p.ftol * (step * p.dec ^ m) * (List.zipWith (· * ·) d g).sum) :
    ∃ r, search .backtracking p loss X y fx g d step xp = .ok (some r) ∧ r.count = m + 1 ∧ r.step = step * p.dec ^ m := by
  obtain ⟨r, hr, hrc, hrs⟩ := armijo_loop p hc loss X y fx _ hm0 xp d hl f hev hgr m (p.maxLinesearch - 1) 0 step 0 none (by omega)
    hbad hgood
  refine ⟨r, ?_, by rw [hrc]; omega, hrs⟩
  unfold search
  rw [if_neg (not_le.mpr hs), dot_ok hg, Res.bind_ok]
  exact (if_neg (not_lt.mpr hm0)).trans hr

end

/-- The loss `w ^ 2` of one weight, with any data. -/
def squareLoss : LossFn ℚ (List ℚ) where
  evaluate _ _ w := .ok (w.map fun a => a ^ 2).sum
  gradient _ _ w := .ok (w.map fun a => 2 * a)

/-- Example for C53: from weight 1 along -2 with first step 2 the points -3, -1 are rejected and 0 is returned; with first step 1/100
the strong Wolfe condition needs more points; a direction of ascent is an error. -/
example : search .backtracking ⟨1 / 2, 21 / 10, 1 / 10000, 9 / 10, 100, 1 / 1000, 40, "WOLFE"⟩ squareLoss ⟨1, []⟩ [] 1 [2] [-2] 2 [1] =
      .ok (some ⟨3, [0], 0, [0], 1 / 2⟩) ∧
    (∃ r, search .bracketing ⟨1 / 2, 21 / 10, 1 / 10000, 1 / 10, 100, 1 / 1000, 40, "STRONG"⟩ squareLoss ⟨1, []⟩ [] 1 [2] [-2] (1 / 100)
      [1] = .ok (some r) ∧ 3 ≤ r.count) ∧
    search .bracketing ⟨1 / 2, 21 / 10, 1 / 10000, 9 / 10, 100, 1 / 1000, 40, "WOLFE"⟩ squareLoss ⟨1, []⟩ [] 1 [2] [2] 2 [1] = .ok none := by
  refine ⟨by decide +kernel, ⟨⟨8, [1 / 25], 1 / 625, [2 / 25], 12 / 25⟩, by decide +kernel, by decide⟩, by decide +kernel⟩

end OpenML
