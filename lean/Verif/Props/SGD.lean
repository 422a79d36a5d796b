import Verif.Lemmas.SGD
import Verif.Lemmas.Lists
import Mathlib.Tactic.FieldSimp
import Mathlib.Tactic.NormNum
import Mathlib.Algebra.BigOperators.Field

/-!
# Mini-batch optimizers (C47, C48, C49, C50, C52)
-/

namespace OpenML

open SGD Spec
open scoped BigOperators

set_option linter.unusedSectionVars false

section C47
variable {α W S : Type} [Field α] [LinearOrder α] [IsStrictOrderedRing α] (loss : LossFn α W) (weights : S → W)
  (step : Step α S)

/-- C47: the call returns normally exactly if there is an epoch below `max_iter` at which the last `num_iters_no_change`
epochs were non-improving; the published weights are those after the first such epoch. Holds for each of the three mini-batch
optimizers, which differ in `step` only. -/
theorem C47_publishes_iff (p : Params α) (hp : p.batchSize ≠ 0) (X : DMat α) (y : List α) (s : S) (w : W) :
    optimize loss weights step p X y s = .ok w ↔
      ∃ i < p.maxIter, ∃ D st L, IsRun loss weights step p (X.nrows / p.batchSize) X y s (i + 1) D st L ∧
        FirstStall (p.tol * (p.batchSize : α)) L p.noChange i ∧ w = weights (st (i + 1)) := by
  constructor
  · intro h
    rcases exists_run loss weights step p (X.nrows / p.batchSize) X y s p.maxIter with ⟨D, st, L, hr⟩ | ⟨m, hm, D, st, L, hr, hf⟩
    · rcases firstStall_or (p.tol * (p.batchSize : α)) L p.noChange p.maxIter with ⟨i, hi, hs⟩ | hs
      · have hr' := isRun_mono loss weights step p _ X y s (show i + 1 ≤ p.maxIter by omega) hr
        refine ⟨i, hi, D, st, L, hr', hs, ?_⟩
        rw [optimize_ok loss weights step p hp X y s i hi D st L hr' hs] at h
        exact (Res.ok.inj h).symm
      · rw [optimize_throw loss weights step p hp X y s D st L hr hs] at h
        cases h
    · rcases firstStall_or (p.tol * (p.batchSize : α)) L p.noChange m with ⟨i, hi, hs⟩ | hs
      · have hr' := isRun_mono loss weights step p _ X y s (show i + 1 ≤ m by omega) hr
        refine ⟨i, by omega, D, st, L, hr', hs, ?_⟩
        rw [optimize_ok loss weights step p hp X y s i (by omega) D st L hr' hs] at h
        exact (Res.ok.inj h).symm
      · exact absurd h (optimize_fail loss weights step p hp X y s m hm D st L hr hs hf w)
  · rintro ⟨i, hi, D, st, L, hr, hs, rfl⟩
    exact optimize_ok loss weights step p hp X y s i hi D st L hr hs

/-- C47: if all `max_iter` epochs run and the losses never stall, the call throws `runtime_error`. -/
theorem C47_throws (p : Params α) (hp : p.batchSize ≠ 0) (X : DMat α) (y : List α) (s : S)
    (D : Nat → DMat α × List α) (st : Nat → S) (L : Nat → α)
    (hr : IsRun loss weights step p (X.nrows / p.batchSize) X y s p.maxIter D st L)
    (hs : ∀ i < p.maxIter, ¬ Stalled (p.tol * (p.batchSize : α)) L p.noChange i) :
    optimize loss weights step p X y s = .throw .runtimeError := optimize_throw loss weights step p hp X y s D st L hr hs

/-- C47: if no single epoch fails, then the call either publishes weights or throws `runtime_error`. -/
theorem C47_dichotomy (p : Params α) (hp : p.batchSize ≠ 0) (X : DMat α) (y : List α) (s : S)
    (hr : ∃ D st L, IsRun loss weights step p (X.nrows / p.batchSize) X y s p.maxIter D st L) :
    (∃ w, optimize loss weights step p X y s = .ok w) ∨ optimize loss weights step p X y s = .throw .runtimeError := by
  obtain ⟨D, st, L, hr⟩ := hr
  rcases firstStall_or (p.tol * (p.batchSize : α)) L p.noChange p.maxIter with ⟨i, hi, hs⟩ | hs
  · exact Or.inl ⟨_, optimize_ok loss weights step p hp X y s i hi D st L
      (isRun_mono loss weights step p _ X y s (show i + 1 ≤ p.maxIter by omega) hr) hs⟩
  · exact Or.inr (optimize_throw loss weights step p hp X y s D st L hr hs)

end C47

/-- A run of `SGD` on two samples of one feature with mean squared error. -/
def sgdDemo (maxIter noChange : Nat) : Res (List ℚ) :=
  sgd ⟨Loss.mseEvaluate 0, Loss.mseGradient 0⟩ clipGrad vanillaUpdate
    { maxIter := maxIter, batchSize := 1, noChange := noChange, tol := 1 / 10, decay := stepDecay (1 / 2) 1 1, shuffle := none }
    ⟨1, [[1], [1]]⟩ [1, 1] [0]

/-- Example for `C47_publishes_iff`: with `num_iters_no_change = 2` the run stops after its fourth epoch. -/
example : sgdDemo 10 2 = .ok [255 / 256] ∧ sgdDemo 4 2 = .ok [255 / 256] := by decide +kernel

/-- Example for `C47_throws`: three epochs are not enough. -/
example : sgdDemo 3 2 = .throw .runtimeError := by decide +kernel

/-- The losses of this run: `Stalled` is met at epoch 3 and not before. -/
example : FirstStall (1 / 10 : ℚ) (fun i => ([5 / 32, 5 / 512, 5 / 8192, 5 / 131072] : List ℚ).getD i 0) 2 3 := by
  refine ⟨fun j hj hlt => ?_, fun j hj hs => ?_⟩
  · refine ⟨1, by omega, ?_⟩
    obtain rfl | rfl : j = 2 ∨ j = 3 := by omega
    · norm_num
    · norm_num
  · obtain ⟨i, hi, h⟩ : NonImproving (1 / 10 : ℚ) (fun i => ([5 / 32, 5 / 512, 5 / 8192, 5 / 131072] : List ℚ).getD i 0)
        (min j 1) := hs _ (by omega) (by omega)
    obtain ⟨rfl, hj1⟩ : i = 0 ∧ min j 1 = 1 := by omega
    rw [hj1] at h
    norm_num at h

section C48
variable {α W S : Type} [Field α] [LinearOrder α] (loss : LossFn α W) (weights : S → W) (step : Step α S)

theorem middleRows_congr {β : Type} (l l' : List β) (m start n : Nat) (h : l.take m = l'.take m) (hm : start + n ≤ m) :
    middleRows l start n = middleRows l' start n := by
  have hlen : (start + n ≤ l.length) ↔ (start + n ≤ l'.length) := by
    have := congrArg List.length h
    rw [List.length_take, List.length_take] at this
    omega
  unfold middleRows
  rw [if_congr hlen rfl rfl]
  split
  · congr 1
    rw [List.take_drop, List.take_drop, ← List.take_take_of_le l hm, ← List.take_take_of_le l' hm, h]
  · rfl
where
  List.take_take_of_le {β : Type} (l : List β) {a m : Nat} (h : a ≤ m) : (l.take m).take a = l.take a := by
    rw [List.take_take, Nat.min_eq_left h]

theorem batchLoop_congr (b k : Nat) (X X' : DMat α) (y y' : List α) (lr : α) (hc : X.ncols = X'.ncols)
    (hX : X.rows.take (k * b) = X'.rows.take (k * b)) (hy : y.take (k * b) = y'.take (k * b)) (n j : Nat) (s : S)
    (hn : j + n ≤ k) :
    batchLoop loss weights step b X y lr n j s = batchLoop loss weights step b X' y' lr n j s := by
  induction n generalizing j s with
  | zero => rfl
  | succ n ih =>
    have hle : j * b + b ≤ k * b := by
      rw [← Nat.succ_mul]
      exact Nat.mul_le_mul_right b (by omega)
    simp only [batchLoop]
    rw [middleRows_congr X.rows X'.rows (k * b) (j * b) b hX hle, middleRows_congr y y' (k * b) (j * b) b hy hle, hc]
    simp only [ih (j + 1) _ (by omega)]

theorem epochLoop_congr (p : Params α) (hs : p.shuffle = none) (k : Nat) (X X' : DMat α) (y y' : List α) (hc : X.ncols = X'.ncols)
    (hX : X.rows.take (k * p.batchSize) = X'.rows.take (k * p.batchSize))
    (hy : y.take (k * p.batchSize) = y'.take (k * p.batchSize)) (n iter : Nat) (s : S) (best : Option α) (count : Nat) :
    epochLoop loss weights step p k n iter X y s best count = epochLoop loss weights step p k n iter X' y' s best count := by
  induction n generalizing iter s best count with
  | zero => rfl
  | succ n ih =>
    simp only [epochLoop, epoch, shuffleXY, hs, Res.bind_ok]
    cases p.decay iter with
    | ok lr =>
      simp only [Res.bind_ok]
      rw [batchLoop_congr loss weights step p.batchSize k X X' y y' lr hc hX hy k 0 s (by omega)]
      cases batchLoop loss weights step p.batchSize X' y' lr k 0 s with
      | ok r => simp only [Res.bind_ok, ih]
      | _ => rfl
    | _ => rfl

/-- C48: two data sets with the same number of full mini-batches and the same samples in them give the same outcome without
shuffling, whatever the remaining samples are. Holds for each of the three mini-batch optimizers. -/
theorem C48_remainder_ignored (p : Params α) (hs : p.shuffle = none) (X X' : DMat α) (y y' : List α) (hc : X.ncols = X'.ncols)
    (hk : X.nrows / p.batchSize = X'.nrows / p.batchSize)
    (hX : X.rows.take (X.nrows / p.batchSize * p.batchSize) = X'.rows.take (X.nrows / p.batchSize * p.batchSize))
    (hy : y.take (X.nrows / p.batchSize * p.batchSize) = y'.take (X.nrows / p.batchSize * p.batchSize)) (s : S) :
    optimize loss weights step p X y s = optimize loss weights step p X' y' s := by
  unfold optimize
  rw [← hk]
  split
  · rfl
  · exact epochLoop_congr loss weights step p hs _ X X' y y' hc hX hy _ _ _ _ _

variable [IsStrictOrderedRing α]

theorem isPass_zero (b : Nat) (X : DMat α) (y : List α) (lr : α) (s s' : S) (total : α) :
    IsPass loss weights step b 0 X y lr s s' total ↔ s' = s ∧ total = 0 := by
  constructor
  · rintro ⟨t, l, rfl, rfl, rfl, _⟩
    exact ⟨rfl, by simp⟩
  · rintro ⟨rfl, rfl⟩
    exact ⟨fun _ => s', fun _ => 0, rfl, rfl, by simp, fun j hj => absurd hj (Nat.not_lt_zero j)⟩

/-- C48: with a batch size above the number of samples no weights but the initial ones can be published. -/
theorem C48_large_batch (p : Params α) (hp : p.batchSize ≠ 0) (X : DMat α) (y : List α) (hb : X.nrows < p.batchSize) (s : S) (w : W)
    (h : optimize loss weights step p X y s = .ok w) : w = weights s := by
  obtain ⟨i, _, D, st, L, hr, _, rfl⟩ := (C47_publishes_iff loss weights step p hp X y s w).mp h
  rw [Nat.div_eq_of_lt hb] at hr
  have : ∀ n ≤ i + 1, st n = s := by
    intro n
    induction n with
    | zero => intro _; exact hr.2.1
    | succ n ih =>
      intro hn
      obtain ⟨_, lr, _, hpass⟩ := hr.2.2 n (by omega)
      rw [((isPass_zero loss weights step _ _ _ _ _ _ _).mp hpass).1, ih (by omega)]
  rw [this (i + 1) (le_refl _)]

/-- C48: with a positive tolerance, no shuffling and such a batch size the call "converges" after `num_iters_no_change + 1`
epochs without having looked at a sample. -/
theorem C48_large_batch_outcome (p : Params α) (hp : p.batchSize ≠ 0) (hs : p.shuffle = none)
    (hd : ∀ i < p.maxIter, ∃ lr, p.decay i = .ok lr) (ht : 0 < p.tol) (X : DMat α) (y : List α) (hb : X.nrows < p.batchSize)
    (s : S) :
    optimize loss weights step p X y s = if p.noChange < p.maxIter then .ok (weights s) else .throw .runtimeError := by
  have hslack : (0 : α) < p.tol * (p.batchSize : α) := mul_pos ht (by exact_mod_cast Nat.pos_of_ne_zero hp)
  have hrun : ∀ n ≤ p.maxIter, IsRun loss weights step p (X.nrows / p.batchSize) X y s n (fun _ => (X, y)) (fun _ => s)
      (fun _ => 0) := by
    intro n hn
    refine ⟨rfl, rfl, fun i hi => ?_⟩
    obtain ⟨lr, hlr⟩ := hd i (by omega)
    refine ⟨by simp only [shuffleXY, hs], lr, hlr, ?_⟩
    rw [Nat.div_eq_of_lt hb]
    exact (isPass_zero loss weights step _ _ _ _ _ _ _).mpr ⟨rfl, rfl⟩
  have hst : ∀ i, Stalled (p.tol * (p.batchSize : α)) (fun _ => (0 : α)) p.noChange i ↔ p.noChange ≤ i := by
    intro i
    constructor
    · intro h
      by_contra hc
      obtain ⟨j, hj, _⟩ := h 0 (by omega) (by omega)
      omega
    · intro h j hj hij
      exact ⟨0, by omega, by simpa using hslack⟩
  split <;> rename_i h
  · exact optimize_ok loss weights step p hp X y s p.noChange h (fun _ => (X, y)) (fun _ => s) (fun _ => 0) (hrun _ (by omega))
      ⟨(hst _).mpr (le_refl _), fun j hj hc => by have := (hst j).mp hc; omega⟩
  · exact optimize_throw loss weights step p hp X y s (fun _ => (X, y)) (fun _ => s) (fun _ => 0) (hrun _ (le_refl _))
      (fun i hi hc => by have := (hst i).mp hc; omega)

end C48

/-- Example for `C48_remainder_ignored`: the third sample is beyond the last full batch of two. -/
example (X : DMat ℚ) (y : List ℚ) (a b : ℚ) (p : Params ℚ) (hp : p.batchSize = 2) (hs : p.shuffle = none)
    (hX : X = ⟨1, [[1], [2], [a]]⟩) (hy : y = [1, 2, b]) (w : List ℚ) :
    sgd ⟨Loss.mseEvaluate 0, Loss.mseGradient 0⟩ clipGrad vanillaUpdate p X y w =
      sgd ⟨Loss.mseEvaluate 0, Loss.mseGradient 0⟩ clipGrad vanillaUpdate p ⟨1, [[1], [2]]⟩ [1, 2] w := by
  subst hX hy
  exact C48_remainder_ignored _ _ _ p hs ⟨1, [[1], [2], [a]]⟩ ⟨1, [[1], [2]]⟩ [1, 2, b] [1, 2] rfl (by simp [DMat.nrows, hp])
    (by simp [DMat.nrows, hp]) (by simp [DMat.nrows, hp]) w

/-- Example for the two theorems on large batches: three samples, batch size 20 (the default for truncated gradients). -/
example : sgd ⟨Loss.mseEvaluate (0 : ℚ), Loss.mseGradient 0⟩ clipGrad vanillaUpdate
    { maxIter := 2000, batchSize := 20, noChange := 5, tol := 1 / 10000, decay := fun _ => .ok 1, shuffle := none }
    ⟨1, [[1], [2], [3]]⟩ [2, 4, 6] [7] = .ok [7] := by
  refine (C48_large_batch_outcome _ _ _ _ (by decide) rfl (fun _ _ => ⟨1, rfl⟩) (by norm_num) _ _ (by decide) _).trans ?_
  rfl

section Reach
variable {α W S : Type} [Field α] (loss : LossFn α W) (weights : S → W) (step : Step α S)

theorem isPass_reach (s₀ : S) (b k : Nat) (X : DMat α) (y : List α) (lr : α) (s s' : S) (total : α) (hs : Reach step s₀ s)
    (h : IsPass loss weights step b k X y lr s s' total) : Reach step s₀ s' := by
  obtain ⟨t, l, rfl, rfl, rfl, hk⟩ := h
  have : ∀ j ≤ k, Reach step s₀ (t j) := by
    intro j
    induction j with
    | zero => intro _; exact hs
    | succ j ih =>
      intro hj
      exact Reach.step _ _ _ _ (ih (by omega)) (hk j (by omega)).2.2.1
  exact this k (le_refl _)

theorem isRun_reach (p : Params α) (k : Nat) (X : DMat α) (y : List α) (s : S) (n : Nat) (D : Nat → DMat α × List α) (st : Nat → S)
    (L : Nat → α) (h : IsRun loss weights step p k X y s n D st L) : ∀ i ≤ n, Reach step s (st i) := by
  intro i
  induction i with
  | zero => intro _; rw [h.2.1]; exact Reach.start
  | succ i ih =>
    intro hi
    obtain ⟨_, lr, _, hp⟩ := h.2.2 i (by omega)
    exact isPass_reach loss weights step s _ _ _ _ lr _ _ _ (ih (by omega)) hp

end Reach

section C49
variable {α : Type} [Field α] [LinearOrder α]

theorem clipGrad_eq (g : List α) : clipGrad g = g.map fun a => max (min a (10 ^ 10)) (-10 ^ 10) := by
  unfold clipGrad MatOps.clip
  induction g with
  | nil => rfl
  | cons a g ih => simpa using ih

theorem sum_map_set {β : Type} (f : β → α) (l : List β) (j : Nat) (g old : β) (h : l[j]? = some old) :
    ((l.set j g).map f).sum = (l.map f).sum + (f g - f old) := by
  induction l generalizing j with
  | nil => simp at h
  | cons a l ih =>
    cases j with
    | zero =>
      simp only [List.getElem?_cons_zero, Option.some.injEq] at h
      subst h
      simp only [List.set_cons_zero, List.map_cons, List.sum_cons]
      ring
    | succ j =>
      simp only [List.getElem?_cons_succ] at h
      simp only [List.set_cons_succ, List.map_cons, List.sum_cons, ih j h]
      ring

theorem getD_zipWith {β : Type} (f : β → β → β) (a b : List β) (i : Nat) (z : β) (ha : i < a.length) (hb : i < b.length) :
    (List.zipWith f a b).getD i z = f (a.getD i z) (b.getD i z) := by
  simp [List.getD_eq_getElem?_getD, ha, hb]

/-- C49: in every state that `SAG` can reach, each component of the running direction is the sum of that component over the
stored gradients divided by the batch size. -/
theorem C49_sag_direction (loss : LossFn α (List α)) (update : List α → List α → α → Res (List α)) (b d k : Nat) (w : List α)
    (s : SagState α)
    (h : Reach (sagStep loss update b) { w := w, history := List.replicate k (List.replicate d 0), avg := List.replicate d 0 } s) :
    s.avg.length = d ∧ s.history.length = k ∧ (∀ c ∈ s.history, c.length = d) ∧
      ∀ i < d, s.avg.getD i 0 = (s.history.map fun c => c.getD i 0).sum / (b : α) := by
  induction h with
  | start =>
    refine ⟨by simp, by simp, fun c hc => ?_, fun i hi => ?_⟩
    · rw [List.eq_of_mem_replicate hc, List.length_replicate]
    · simp [List.getD_eq_getElem?_getD, hi]
  | @step s s' Xb yb lr j _ hstep ih =>
    obtain ⟨h1, h2, h3, h4⟩ := ih
    unfold sagStep at hstep
    simp only [Res.bind_eq_ok, Res.ok.injEq] at hstep
    obtain ⟨g, _, old, hold, diff, hdiff, avg, havg, w', _, rfl⟩ := hstep
    rw [readAt_eq_ok] at hold
    have holdlen : old.length = d := h3 old (List.mem_of_getElem? hold)
    unfold Loss.subV at hdiff
    split at hdiff <;> rename_i hg
    · rw [holdlen] at hg
      rw [Res.ok.injEq] at hdiff
      subst hdiff
      unfold Loss.addV at havg
      split at havg <;> rename_i ha
      · rw [Res.ok.injEq] at havg
        subst havg
        have hdl : (List.zipWith (· - ·) (clipGrad g) old).length = d := by rw [List.length_zipWith, hg, holdlen, Nat.min_self]
        refine ⟨by rw [List.length_zipWith, List.length_map, hdl, h1, Nat.min_self], by rw [List.length_set, h2], ?_, ?_⟩
        · intro c hc
          rcases List.mem_or_eq_of_mem_set hc with hc | rfl
          · exact h3 c hc
          · exact hg
        · intro i hi
          dsimp only
          rw [getD_zipWith _ _ _ _ _ (by omega) (by rw [List.length_map]; omega), h4 i hi, sum_map_set _ _ _ _ _ hold]
          have : (List.map (fun a => a / (b : α)) (List.zipWith (· - ·) (clipGrad g) old)).getD i 0 =
              ((clipGrad g).getD i 0 - old.getD i 0) / (b : α) := by
            have hz := getD_zipWith (fun a b : α => a - b) (clipGrad g) old i 0 (by omega) (by omega)
            rw [← hz]
            simp [List.getD_eq_getElem?_getD, List.getElem?_map, hi, hg, holdlen]
          rw [this, add_div]
      · cases havg
    · cases hdiff

/-- C49: for the states between the epochs of a call of `SAG::optimize`. -/
theorem C49_sag_run (loss : LossFn α (List α)) (update : List α → List α → α → Res (List α)) (p : Params α) (X : DMat α)
    (y w : List α) (n : Nat) (D : Nat → DMat α × List α) (st : Nat → SagState α) (L : Nat → α)
    (h : IsRun loss SagState.w (sagStep loss update p.batchSize) p (X.nrows / p.batchSize) X y
      { w := w, history := List.replicate (X.nrows / p.batchSize) (List.replicate X.ncols 0), avg := List.replicate X.ncols 0 }
      n D st L) (m : Nat) (hm : m ≤ n) (i : Nat) (hi : i < X.ncols) :
    (st m).avg.getD i 0 = ((st m).history.map fun c => c.getD i 0).sum / (p.batchSize : α) :=
  (C49_sag_direction loss update _ _ _ w _ (isRun_reach _ _ _ p _ X y _ n D st L h m hm)).2.2.2 i hi

/-- C49: after a pass over all `k` batches the stored gradients are the clipped gradients of this pass, each at the weights
with which its batch was entered; the direction is their sum divided by the batch size. -/
theorem C49_sag_pass (loss : LossFn α (List α)) (update : List α → List α → α → Res (List α)) (b d k : Nat) (w : List α)
    (X : DMat α) (y : List α) (lr : α) (s s' : SagState α) (total : α)
    (hs : Reach (sagStep loss update b) { w := w, history := List.replicate k (List.replicate d 0), avg := List.replicate d 0 } s)
    (h : IsPass loss SagState.w (sagStep loss update b) b k X y lr s s' total) :
    ∃ (ws g : Nat → List α), ws 0 = s.w ∧ ws k = s'.w ∧
      (∀ j < k, loss.gradient ⟨X.ncols, batch b j X.rows⟩ (batch b j y) (ws j) = .ok (g j)) ∧
      ∀ i < d, s'.avg.getD i 0 = (∑ j ∈ Finset.range k, max (min ((g j).getD i 0) (10 ^ 10)) (-10 ^ 10)) / (b : α) := by
  have hr := isPass_reach loss SagState.w _ _ b k X y lr s s' total hs h
  obtain ⟨h1, h2, h3, h4⟩ := C49_sag_direction loss update b d k w s' hr
  obtain ⟨t, l, rfl, rfl, rfl, hk⟩ := h
  have hgr : ∀ j, ∃ g, j < k → loss.gradient ⟨X.ncols, batch b j X.rows⟩ (batch b j y) (t j).w = .ok g ∧
      (t (j + 1)).history = (t j).history.set j (clipGrad g) := by
    intro j
    by_cases hj : j < k
    · have hstep := (hk j hj).2.2.1
      unfold sagStep at hstep
      simp only [Res.bind_eq_ok, Res.ok.injEq] at hstep
      obtain ⟨g, hg, old, _, diff, _, avg, _, w', _, he⟩ := hstep
      exact ⟨g, fun _ => ⟨hg, by rw [← he]⟩⟩
    · exact ⟨[], fun hc => absurd hc hj⟩
  choose g hg using hgr
  have hreach : ∀ j ≤ k, Reach (sagStep loss update b)
      { w := w, history := List.replicate k (List.replicate d 0), avg := List.replicate d 0 } (t j) := by
    intro j
    induction j with
    | zero => intro _; exact hs
    | succ j ih =>
      intro hj
      exact Reach.step _ _ _ _ (ih (by omega)) (hk j (by omega)).2.2.1
  have hhist : ∀ n ≤ k, ∀ j < n, (t n).history[j]? = some (clipGrad (g j)) := by
    intro n
    induction n with
    | zero => intro _ j hj; omega
    | succ n ih =>
      intro hn j hj
      rw [(hg n (by omega)).2]
      have hlen := (C49_sag_direction loss update b d k w _ (hreach n (by omega))).2.1
      rcases Nat.lt_succ_iff_lt_or_eq.mp hj with hlt | rfl
      · rw [List.getElem?_set_ne (by omega)]
        exact ih (by omega) j hlt
      · rw [List.getElem?_set_self (by omega)]
  refine ⟨fun j => (t j).w, g, rfl, rfl, fun j hj => (hg j hj).1, fun i hi => ?_⟩
  rw [h4 i hi]
  congr 1
  have hlist : (t k).history = List.ofFn fun j : Fin k => clipGrad (g j) := by
    apply List.ext_getElem?
    intro j
    by_cases hj : j < k
    · rw [hhist k (le_refl _) j hj]
      simp [hj]
    · rw [List.getElem?_eq_none (by omega), List.getElem?_eq_none (by simp; omega)]
  rw [hlist, List.map_ofFn, List.sum_ofFn, Finset.sum_range]
  refine Finset.sum_congr rfl fun j _ => ?_
  have hglen : (clipGrad (g j)).length = d := h3 _ (by rw [hlist]; exact List.mem_ofFn.mpr ⟨j, rfl⟩)
  simp only [Function.comp_apply]
  rw [clipGrad_eq] at hglen ⊢
  rw [List.length_map] at hglen
  simp [List.getD_eq_getElem?_getD, hglen, hi]

/-- C49: the direction is the average of the stored gradients exactly if the number of batches equals the batch size, as soon as
one component of their sum is not zero. -/
theorem C49_average_iff [CharZero α] (loss : LossFn α (List α)) (update : List α → List α → α → Res (List α)) (b d k : Nat)
    (hb : b ≠ 0) (hk : k ≠ 0) (w : List α) (s : SagState α)
    (h : Reach (sagStep loss update b) { w := w, history := List.replicate k (List.replicate d 0), avg := List.replicate d 0 } s)
    (hne : ∃ i < d, (s.history.map fun c => c.getD i 0).sum ≠ 0) :
    (∀ i < d, s.avg.getD i 0 = (s.history.map fun c => c.getD i 0).sum / (s.history.length : α)) ↔ k = b := by
  obtain ⟨_, h2, _, h4⟩ := C49_sag_direction loss update b d k w s h
  rw [h2]
  constructor
  · intro hall
    obtain ⟨i, hi, hne⟩ := hne
    have := hall i hi
    rw [h4 i hi] at this
    have hb' : (b : α) ≠ 0 := Nat.cast_ne_zero.mpr hb
    have hk' : (k : α) ≠ 0 := Nat.cast_ne_zero.mpr hk
    rw [div_eq_div_iff hb' hk'] at this
    exact_mod_cast mul_left_cancel₀ hne this
  · rintro rfl
    exact h4

end C49

/-- Example for C49: with two batches of one sample the direction is the sum of both gradients, twice their average. -/
example : sagStep ⟨Loss.mseEvaluate (0 : ℚ), Loss.mseGradient 0⟩ vanillaUpdate 1 { w := [0], history := [[0], [0]], avg := [0] }
      ⟨1, [[1]]⟩ [1] (1 / 2) 0 = .ok { w := [1 / 2], history := [[-1], [0]], avg := [-1] } ∧
    sagStep ⟨Loss.mseEvaluate (0 : ℚ), Loss.mseGradient 0⟩ vanillaUpdate 1 { w := [1 / 2], history := [[-1], [0]], avg := [-1] }
      ⟨1, [[1]]⟩ [1] (1 / 2) 1 = .ok { w := [5 / 4], history := [[-1], [-1 / 2]], avg := [-3 / 2] } := by
  refine ⟨?_, ?_⟩ <;>
    (simp [sagStep, Loss.mseGradient, Loss.mulVec, Loss.subV, Loss.addV, Loss.tmulVec, Loss.dotL, Loss.penaltyGrad, DMat.nrows,
      DMat.cols, DMat.col, clipGrad_eq, vanillaUpdate, readAt]; try norm_num)

section C50
variable {α : Type} [Field α] [LinearOrder α] [IsStrictOrderedRing α]

theorem truncateOne_eq (u w : α) (hu : 0 ≤ u) : truncateOne u w 0 = softThreshold u w := by
  unfold truncateOne softThreshold
  rcases lt_trichotomy w 0 with h | rfl | h
  · rw [if_neg (not_lt.mpr h.le), if_pos h, if_neg (not_le.mpr h), sub_zero]
    rcases le_total 0 (w + u) with h' | h'
    · rw [min_eq_left h', max_eq_left (by linarith), neg_zero]
    · rw [min_eq_right h', max_eq_right (by linarith)]
      ring
  · simp [hu]
  · rw [if_pos h, if_pos h.le, add_zero]

/-- C50: with zero accumulators every weight is moved toward zero by the penalty and stops there; the accumulators stay zero. -/
theorem C50_truncate (w : List α) (d : Nat) (hd : w.length ≤ d) (u : α) (hu : 0 ≤ u) :
    truncate w (List.replicate d 0) u = .ok (w.map (softThreshold u), List.replicate d 0) := by
  unfold truncate
  rw [if_pos (by rw [List.length_replicate]; exact hd), List.length_replicate]
  congr 2
  induction w generalizing d with
  | nil => simp
  | cons a w ih =>
    cases d with
    | zero => simp at hd
    | succ d =>
      rw [List.replicate_succ, List.zipWith_cons_cons, List.map_cons, ih d (by simpa using hd), truncateOne_eq u a hu]

/-- C50: what moving toward zero means: the sign is kept or the result is zero, the magnitude shrinks by the penalty, but not
below zero. -/
theorem C50_soft_threshold (u w : α) (hu : 0 ≤ u) :
    |softThreshold u w| = max 0 (|w| - u) ∧ (0 ≤ w → 0 ≤ softThreshold u w) ∧ (w ≤ 0 → softThreshold u w ≤ 0) ∧
      |softThreshold u w| ≤ |w| := by
  have habs : |softThreshold u w| = max 0 (|w| - u) := by
    unfold softThreshold
    split <;> rename_i h
    · rw [abs_of_nonneg (le_max_left _ _), abs_of_nonneg h]
    · rw [abs_neg, abs_of_nonneg (le_max_left _ _), abs_of_neg (not_le.mp h)]
  refine ⟨habs, fun h => ?_, fun h => ?_, ?_⟩
  · unfold softThreshold
    rw [if_pos h]
    exact le_max_left _ _
  · unfold softThreshold
    split <;> rename_i h'
    · have : w = 0 := le_antisymm h h'
      subst this
      simp [hu]
    · rw [neg_nonpos]
      exact le_max_left _ _
  · rw [habs]
    exact max_le (abs_nonneg w) (by linarith)

/-- C50: in a pass of `TruncatedGradient::optimize` the penalty grows by `l1_ratio * lr * alpha` with each batch, is never reset,
and the weights after each batch are the updated weights moved toward zero by the whole penalty accumulated so far. -/
theorem C50_tg_pass (loss : LossFn α (List α)) (update : List α → List α → α → Res (List α)) (l1 alpha : α) (b k d : Nat)
    (X : DMat α) (y : List α) (lr : α) (hpos : 0 ≤ l1 * lr * alpha) (s s' : TgState α) (total : α)
    (hcum : s.cum = List.replicate d 0) (hmax : 0 ≤ s.maxCum)
    (h : IsPass loss TgState.w (tgStep loss update l1 alpha) b k X y lr s s' total) :
    s'.cum = List.replicate d 0 ∧ s'.maxCum = s.maxCum + (k : α) * (l1 * lr * alpha) ∧
      ∃ ws : Nat → List α, ws 0 = s.w ∧ ws k = s'.w ∧ ∀ j < k, ∃ g v,
        loss.gradient ⟨X.ncols, batch b j X.rows⟩ (batch b j y) (ws j) = .ok g ∧
        update (ws j) (g.map fun a => max (min a (10 ^ 10)) (-10 ^ 10)) lr = .ok v ∧
        ws (j + 1) = v.map (softThreshold (s.maxCum + ((j : α) + 1) * (l1 * lr * alpha))) := by
  obtain ⟨t, l, rfl, rfl, rfl, hk⟩ := h
  have hstep : ∀ j < k, ∃ g v, loss.gradient ⟨X.ncols, batch b j X.rows⟩ (batch b j y) (t j).w = .ok g ∧
      update (t j).w (clipGrad g) lr = .ok v ∧ (t (j + 1)).maxCum = (t j).maxCum + l1 * lr * alpha ∧
      truncate v (t j).cum ((t j).maxCum + l1 * lr * alpha) = .ok ((t (j + 1)).w, (t (j + 1)).cum) := by
    intro j hj
    have hs := (hk j hj).2.2.1
    unfold tgStep at hs
    simp only [Res.bind_eq_ok, Res.ok.injEq] at hs
    obtain ⟨g, hg, v, hv, tr, htr, he⟩ := hs
    refine ⟨g, v, hg, hv, ?_, ?_⟩
    · rw [← he]
    · rw [htr, ← he]
  have hinv : ∀ j ≤ k, (t j).cum = List.replicate d 0 ∧ (t j).maxCum = (t 0).maxCum + (j : α) * (l1 * lr * alpha) := by
    intro j
    induction j with
    | zero => intro _; exact ⟨hcum, by simp⟩
    | succ j ih =>
      intro hj
      obtain ⟨hc, hm⟩ := ih (by omega)
      obtain ⟨g, v, _, _, hmc, htr⟩ := hstep j (by omega)
      refine ⟨?_, ?_⟩
      · rw [hc] at htr
        unfold truncate at htr
        split at htr
        · rw [Res.ok.injEq, Prod.mk.injEq, List.length_replicate] at htr
          exact htr.2.symm
        · cases htr
      · rw [hmc, hm]
        push_cast
        ring
  refine ⟨(hinv k (le_refl _)).1, (hinv k (le_refl _)).2, fun j => (t j).w, rfl, rfl, fun j hj => ?_⟩
  obtain ⟨g, v, hg, hv, hmc, htr⟩ := hstep j hj
  refine ⟨g, v, hg, by rw [← clipGrad_eq]; exact hv, ?_⟩
  obtain ⟨hc, hm⟩ := hinv j (by omega)
  have hu : 0 ≤ (t j).maxCum + l1 * lr * alpha := by
    rw [hm]
    have : (0 : α) ≤ (j : α) * (l1 * lr * alpha) := mul_nonneg (Nat.cast_nonneg j) hpos
    linarith
  have hlen : v.length ≤ d := by
    rw [hc] at htr
    unfold truncate at htr
    split at htr <;> rename_i h
    · rw [List.length_replicate] at h
      exact h
    · cases htr
  rw [hc, C50_truncate v d hlen _ hu, Res.ok.injEq, Prod.mk.injEq] at htr
  dsimp only
  rw [← htr.1, hm, show (t 0).maxCum + (j : α) * (l1 * lr * alpha) + l1 * lr * alpha =
    (t 0).maxCum + ((j : α) + 1) * (l1 * lr * alpha) by ring]

end C50

/-- Example for `C50_truncate`. -/
example : truncate [3, -3, 1, -1, (0 : ℚ)] (List.replicate 5 0) 2 = .ok ([1, -1, 0, 0, 0], [0, 0, 0, 0, 0]) := by decide +kernel

/-- Example for `C50_tg_pass`: with a zero gradient two batches move the weight 10 by 1 and then by 2. -/
example : IsPass ⟨fun _ _ _ => .ok (0 : ℚ), fun _ _ _ => .ok [0]⟩ TgState.w
    (tgStep ⟨fun _ _ _ => .ok (0 : ℚ), fun _ _ _ => .ok [0]⟩ vanillaUpdate 1 1) 1 2 ⟨1, [[1], [1]]⟩ [1, 1] 1
    { w := [10], cum := [0], maxCum := 0 } { w := [7], cum := [0], maxCum := 2 } 0 := by
  refine ⟨fun j => ([{ w := [10], cum := [0], maxCum := 0 }, { w := [9], cum := [0], maxCum := 1 }] : List (TgState ℚ)).getD j
    { w := [7], cum := [0], maxCum := 2 }, fun _ => 0, rfl, rfl, by simp, fun j hj => ?_⟩
  obtain rfl | rfl : j = 0 ∨ j = 1 := by omega
  · refine ⟨by decide, by decide, ?_, rfl⟩
    simp [tgStep, clipGrad_eq, vanillaUpdate, Loss.subV, truncate, truncateOne]
    norm_num
  · refine ⟨by decide, by decide, ?_, rfl⟩
    simp [tgStep, clipGrad_eq, vanillaUpdate, Loss.subV, truncate, truncateOne]
    norm_num

section C52

/-- C52: the rate of `StepDecay` never increases from an epoch to a later one. -/
theorem C52_step_decay {α : Type} [Field α] [LinearOrder α] [IsStrictOrderedRing α] (base gamma : α) (hb : 0 ≤ base) (h0 : 0 ≤ gamma)
    (h1 : gamma ≤ 1) (size : Nat) (hs : size ≠ 0) (i j : Nat) (hij : i ≤ j) :
    ∃ a c, stepDecay base gamma size i = .ok a ∧ stepDecay base gamma size j = .ok c ∧ c ≤ a ∧ 0 ≤ c := by
  refine ⟨base * gamma ^ ((1 + i) / size), base * gamma ^ ((1 + j) / size), ?_, ?_, ?_, ?_⟩
  · rw [stepDecay, if_neg hs]
  · rw [stepDecay, if_neg hs]
  · exact mul_le_mul_of_nonneg_left (pow_le_pow_of_le_one h0 h1 (Nat.div_le_div_right (by omega))) hb
  · exact mul_nonneg hb (pow_nonneg h0 _)

/-- C52: the rate is multiplied by `gamma` once every `step_size` epochs, for the first time in epoch `step_size - 1`, and is
constant in between. -/
theorem C52_step_decay_steps {α : Type} [Field α] (base gamma : α) (size : Nat) (hs : size ≠ 0) (q r : Nat) (hr : r < size) :
    stepDecay base gamma size (q * size + r) =
      .ok (if r + 1 = size then base * gamma ^ (q + 1) else base * gamma ^ q) := by
  rw [stepDecay, if_neg hs]
  split <;> rename_i h
  · rw [show 1 + (q * size + r) = (q + 1) * size by rw [Nat.succ_mul]; omega, Nat.mul_div_cancel _ (by omega)]
  · rw [show 1 + (q * size + r) = (r + 1) + size * q by rw [Nat.mul_comm]; omega,
      Nat.add_mul_div_left _ _ (by omega : 0 < size), Nat.div_eq_of_lt (by omega), Nat.zero_add]

/-- C52: with positive parameters the rate of `ExponentialDecay` grows with every epoch. -/
theorem C52_exponential_grows (base gamma : ℝ) (hb : 0 < base) (hg : 0 < gamma) (i j : Nat) (hij : i < j) :
    ∃ a c, exponentialDecay base gamma i = .ok a ∧ exponentialDecay base gamma j = .ok c ∧ a < c := by
  refine ⟨_, _, rfl, rfl, mul_lt_mul_of_pos_left (Real.exp_lt_exp.mpr ?_) hb⟩
  exact mul_lt_mul_of_pos_left (by exact_mod_cast hij) hg

/-- C52: the rate of `ExponentialDecay` exceeds every bound. -/
theorem C52_exponential_unbounded (base gamma : ℝ) (hb : 0 < base) (hg : 0 < gamma) (bound : ℝ) :
    ∃ i a, exponentialDecay base gamma i = .ok a ∧ bound < a := by
  obtain ⟨i, hi⟩ := exists_nat_gt (bound / base / gamma)
  refine ⟨i, _, rfl, ?_⟩
  have h1 : bound / base < gamma * i := by
    rw [div_lt_iff₀ hg] at hi
    linarith
  have h2 : gamma * i < Real.exp (gamma * i) := by linarith [Real.add_one_le_exp (gamma * i)]
  have h3 : bound / base < Real.exp (gamma * i) := h1.trans h2
  rw [div_lt_iff₀ hb] at h3
  linarith

/-- C52: `MomentumUpdate` does what `VanillaUpdate` does, whatever the momentum factor. -/
theorem C52_momentum {α : Type} [Field α] (mu : α) (w grad : List α) (lr : α) :
    momentumUpdate mu w grad lr = vanillaUpdate w grad lr := by
  unfold momentumUpdate vanillaUpdate Loss.addV
  simp only [List.map_replicate, zero_mul, List.length_replicate, List.length_map]
  by_cases h : w.length = grad.length
  · rw [if_pos h, Res.bind_ok]
    congr 1
    rw [h]
    clear h
    induction grad with
    | nil => rfl
    | cons a grad ih =>
      rw [List.length_cons, List.replicate_succ, List.map_cons, List.zipWith_cons_cons, ih, zero_add, mul_comm a lr, List.map_cons]
  · rw [if_neg h, Res.bind_ub, Loss.subV, if_neg (by simpa using h)]

/-- C52: whole runs of SGD, SAG and truncated gradient with `MomentumUpdate` are those with `VanillaUpdate`. -/
theorem C52_momentum_run {α : Type} [Field α] [LinearOrder α] (mu : α) (loss : LossFn α (List α)) (p : Params α) (X : DMat α) (y w : List α)
    (l1Ratio alpha : α) :
    sgd loss clipGrad (momentumUpdate mu) p X y w = sgd loss clipGrad vanillaUpdate p X y w ∧
    sag loss (momentumUpdate mu) p X y w = sag loss vanillaUpdate p X y w ∧
    tg loss (momentumUpdate mu) l1Ratio alpha p X y w = tg loss vanillaUpdate l1Ratio alpha p X y w := by
  have h : momentumUpdate mu = vanillaUpdate (α := α) := by
    funext w grad lr
    exact C52_momentum mu w grad lr
  rw [h]
  exact ⟨rfl, rfl, rfl⟩

/-- C52: the vanilla step on each weight. -/
theorem C52_vanilla {α : Type} [Field α] (w grad : List α) (lr : α) (h : w.length = grad.length) :
    ∃ v, vanillaUpdate w grad lr = .ok v ∧ v.length = w.length ∧ ∀ i < w.length, v.getD i 0 = w.getD i 0 - lr * grad.getD i 0 := by
  refine ⟨_, by rw [vanillaUpdate, Loss.subV, if_pos (by simpa using h)], by simp [h], fun i hi => ?_⟩
  rw [getD_zipWith _ _ _ _ _ hi (by rw [List.length_map]; omega)]
  simp [List.getD_eq_getElem?_getD, h ▸ hi]

end C52

/-- Examples for C52: rates of `StepDecay(1, 1/2, 3)` in epochs 0 to 6; a momentum step. -/
example : (List.range 7).map (stepDecay (1 : ℚ) (1 / 2) 3) =
    [.ok 1, .ok 1, .ok (1 / 2), .ok (1 / 2), .ok (1 / 2), .ok (1 / 4), .ok (1 / 4)] := by decide +kernel

example : momentumUpdate (9 / 10) [1, 2] [10, -10] (1 / 10 : ℚ) = .ok [0, 3] := by decide +kernel

end OpenML
