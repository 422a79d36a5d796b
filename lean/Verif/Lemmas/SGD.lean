import Verif.Spec.SGD
import Mathlib.Algebra.BigOperators.Intervals
import Mathlib.Algebra.Order.Field.Basic
import Mathlib.Tactic.Ring
import Mathlib.Tactic.Linarith

/-!
# Lemmas about the mini-batch loops
-/

namespace OpenML.SGD

open Spec
open scoped BigOperators

set_option linter.unusedSectionVars false

theorem middleRows_eq_ok {β : Type} {l r : List β} {j b : Nat} :
    middleRows l (j * b) b = .ok r ↔ (j + 1) * b ≤ l.length ∧ batch b j l = r := by
  unfold middleRows batch
  rw [Nat.succ_mul]
  split <;> rename_i h
  · simp [h]
  · simp [h]

section
variable {α W S : Type} [Field α] (loss : LossFn α W) (weights : S → W) (step : Step α S)

theorem batchLoop_eq_ok (b : Nat) (X : DMat α) (y : List α) (lr : α) (n : Nat) : ∀ (j : Nat) (s s' : S) (ls : List α),
    batchLoop loss weights step b X y lr n j s = .ok (s', ls) ↔
      ∃ (t : Nat → S) (l : Nat → α), t 0 = s ∧ t n = s' ∧ ls = (List.range n).map l ∧
        ∀ k < n, (j + k + 1) * b ≤ X.rows.length ∧ (j + k + 1) * b ≤ y.length ∧
          step (t k) ⟨X.ncols, batch b (j + k) X.rows⟩ (batch b (j + k) y) lr (j + k) = .ok (t (k + 1)) ∧
          loss.evaluate ⟨X.ncols, batch b (j + k) X.rows⟩ (batch b (j + k) y) (weights (t (k + 1))) = .ok (l k) := by
  induction n with
  | zero =>
    intro j s s' ls
    simp only [batchLoop, Res.ok.injEq, Prod.mk.injEq, List.range_zero, List.map_nil, Nat.not_lt_zero, false_implies,
      implies_true, and_true]
    constructor
    · rintro ⟨rfl, rfl⟩
      exact ⟨fun _ => s, fun _ => 0, rfl, rfl, rfl⟩
    · rintro ⟨t, _, h0, h1, h2⟩
      exact ⟨h0.symm.trans h1, h2.symm⟩
  | succ n ih =>
    intro j s s' ls
    simp only [batchLoop, Res.bind_eq_ok, middleRows_eq_ok, Res.ok.injEq, Prod.mk.injEq]
    constructor
    · rintro ⟨rows, ⟨h1, rfl⟩, yb, ⟨h2, rfl⟩, s1, hs1, l0, hl0, ⟨sr, lsr⟩, hrest, rfl, rfl⟩
      obtain ⟨t, l, ht0, htn, hls, hk⟩ := (ih (j + 1) s1 sr lsr).mp hrest
      refine ⟨fun | 0 => s | k + 1 => t k, fun | 0 => l0 | k + 1 => l k, rfl, htn, ?_, ?_⟩
      · rw [List.range_succ_eq_map, List.map_cons, List.map_map]
        simp only [hls]
        rfl
      · intro k hkn
        match k with
        | 0 =>
          dsimp only
          rw [ht0]
          exact ⟨h1, h2, hs1, hl0⟩
        | k + 1 =>
          have h := hk k (by omega)
          rw [show j + 1 + k = j + (k + 1) by omega] at h
          exact h
    · rintro ⟨t, l, rfl, rfl, rfl, hk⟩
      have h := hk 0 (by omega)
      refine ⟨_, ⟨h.1, rfl⟩, _, ⟨h.2.1, rfl⟩, t 1, h.2.2.1, l 0, h.2.2.2, (t (n + 1), (List.range n).map fun k => l (k + 1)),
        ?_, rfl, ?_⟩
      · refine (ih (j + 1) (t 1) _ _).mpr ⟨fun k => t (k + 1), fun k => l (k + 1), rfl, rfl, rfl, fun k hkn => ?_⟩
        have h := hk (k + 1) (by omega)
        rw [show j + (k + 1) = j + 1 + k by omega] at h
        exact h
      · rw [List.range_succ_eq_map, List.map_cons, List.map_map]
        rfl

theorem epoch_eq_ok (p : Params α) (k iter : Nat) (X : DMat α) (y : List α) (s s' : S) (d : DMat α × List α) (total : α) :
    epoch loss weights step p k iter X y s = .ok (d, s', total) ↔ shuffleXY p.shuffle iter X y = .ok d ∧
      ∃ lr, p.decay iter = .ok lr ∧ IsPass loss weights step p.batchSize k d.1 d.2 lr s s' total := by
  simp only [epoch, Res.bind_eq_ok, Res.ok.injEq, Prod.mk.injEq, IsPass]
  constructor
  · rintro ⟨d', hd, lr, hlr, ⟨sr, ls⟩, hb, rfl, rfl, rfl⟩
    obtain ⟨t, l, h0, hn, rfl, hk⟩ := (batchLoop_eq_ok loss weights step _ _ _ _ _ _ _ _ _).mp hb
    refine ⟨hd, lr, hlr, t, l, h0, hn, ?_, ?_⟩
    · rw [Finset.sum_range, ← List.sum_ofFn]
      dsimp only
      rw [List.ofFn_eq_map, ← List.map_coe_finRange_eq_range, List.map_map]
      rfl
    · intro j hj
      have h := hk j hj
      rw [Nat.zero_add] at h
      exact h
  · rintro ⟨hd, lr, hlr, t, l, rfl, rfl, rfl, hk⟩
    refine ⟨d, hd, lr, hlr, (t k, (List.range k).map l), ?_, rfl, rfl, ?_⟩
    · refine (batchLoop_eq_ok loss weights step _ _ _ _ _ _ _ _ _).mpr ⟨t, l, rfl, rfl, rfl, fun j hj => ?_⟩
      have h := hk j hj
      rw [Nat.zero_add]
      exact h
    · rw [Finset.sum_range, ← List.sum_ofFn]
      dsimp only
      rw [List.ofFn_eq_map, ← List.map_coe_finRange_eq_range, List.map_map]
      rfl

/-- Epoch by epoch description of a run through the model. -/
theorem isRun_iff (p : Params α) (k : Nat) (X : DMat α) (y : List α) (s : S) (n : Nat) (D : Nat → DMat α × List α) (st : Nat → S)
    (L : Nat → α) : IsRun loss weights step p k X y s n D st L ↔ D 0 = (X, y) ∧ st 0 = s ∧
      ∀ i < n, epoch loss weights step p k i (D i).1 (D i).2 (st i) = .ok (D (i + 1), st (i + 1), L i) := by
  simp only [IsRun, epoch_eq_ok]

end

section
variable {α : Type} [Field α] [LinearOrder α]

/-- What `best_loss` is after some epochs. -/
def BestInv (L : Nat → α) (i : Nat) (best : Option α) : Prop :=
  match best with
  | none => i = 0
  | some b => (∃ j < i, L j = b) ∧ ∀ j < i, b ≤ L j

/-- What `no_improvement_count` is after some epochs. -/
def CountInv (slack : α) (L : Nat → α) (i count : Nat) : Prop :=
  ∀ m, m ≤ count ↔ m ≤ i ∧ ∀ j < i, i ≤ j + m → NonImproving slack L j

variable [IsStrictOrderedRing α]

theorem worse_iff (p : Params α) (L : Nat → α) (i : Nat) (best : Option α) (h : BestInv L i best) :
    worse p best (L i) = true ↔ NonImproving (p.tol * (p.batchSize : α)) L i := by
  unfold worse NonImproving
  cases best with
  | none =>
    have : i = 0 := h
    subst this
    simp
  | some b =>
    obtain ⟨⟨j, hj, rfl⟩, hle⟩ := h
    simp only [gt_iff_lt, decide_eq_true_eq]
    constructor
    · intro hl
      exact ⟨j, hj, hl⟩
    · rintro ⟨j', hj', hl⟩
      have := hle j' hj'
      linarith

theorem bestInv_step (L : Nat → α) (i : Nat) (best : Option α) (h : BestInv L i best) :
    BestInv L (i + 1) (some (newBest best (L i))) := by
  unfold newBest
  cases best with
  | none =>
    have : i = 0 := h
    subst this
    exact ⟨⟨0, by omega, rfl⟩, fun j hj => by rw [show j = 0 by omega]⟩
  | some b =>
    obtain ⟨⟨j, hj, hjb⟩, hle⟩ := h
    dsimp only
    by_cases hl : L i < b
    · rw [if_pos hl]
      refine ⟨⟨i, by omega, rfl⟩, fun j' hj' => ?_⟩
      rcases Nat.lt_succ_iff_lt_or_eq.mp hj' with h | rfl
      · exact hl.le.trans (hle _ h)
      · exact le_refl _
    · rw [if_neg hl]
      refine ⟨⟨j, by omega, hjb⟩, fun j' hj' => ?_⟩
      rcases Nat.lt_succ_iff_lt_or_eq.mp hj' with h | rfl
      · exact hle _ h
      · exact not_lt.mp hl

theorem countInv_step (slack : α) (L : Nat → α) (i count : Nat) (h : CountInv slack L i count) (w : Bool)
    (hw : w = true ↔ NonImproving slack L i) : CountInv slack L (i + 1) (if w then count + 1 else 0) := by
  intro m
  cases w with
  | true =>
    have hi : NonImproving slack L i := hw.mp rfl
    simp only [if_true]
    match m with
    | 0 => simp; intro j hj hj'; omega
    | m + 1 =>
      rw [Nat.add_le_add_iff_right, h m, Nat.add_le_add_iff_right]
      refine and_congr_right fun _ => ⟨fun hall j hj hjm => ?_, fun hall j hj hjm => hall j (by omega) (by omega)⟩
      rcases Nat.lt_succ_iff_lt_or_eq.mp hj with h' | rfl
      · exact hall j h' (by omega)
      · exact hi
  | false =>
    have hi : ¬ NonImproving slack L i := fun hc => by simpa using hw.mpr hc
    simp only [Bool.false_eq_true, if_false]
    constructor
    · intro hm
      exact ⟨by omega, fun j hj hjm => by omega⟩
    · rintro ⟨_, hall⟩
      by_contra hm
      exact hi (hall i (by omega) (by omega))

theorem count_ge_iff (slack : α) (L : Nat → α) (i count m : Nat) (h : CountInv slack L (i + 1) count) :
    count ≥ m ↔ Stalled slack L m i := by
  unfold Stalled
  rw [ge_iff_le, h m]
  constructor
  · rintro ⟨_, hall⟩ j hj hjm
    exact hall j (by omega) (by omega)
  · intro hall
    refine ⟨?_, fun j hj hjm => hall j (by omega) (by omega)⟩
    by_contra hm
    obtain ⟨j, hj, _⟩ := hall 0 (by omega) (by omega)
    omega

variable {W S : Type} (loss : LossFn α W) (weights : S → W) (step : Step α S)

/-- The loop from epoch `i` on, given a run of `n` epochs, `i < n`. -/
theorem epochLoop_step (p : Params α) (k : Nat) (D : Nat → DMat α × List α) (st : Nat → S) (L : Nat → α) (i r : Nat)
    (he : epoch loss weights step p k i (D i).1 (D i).2 (st i) = .ok (D (i + 1), st (i + 1), L i)) (best : Option α) (count : Nat)
    (hb : BestInv L i best) (hc : CountInv (p.tol * (p.batchSize : α)) L i count) :
    ∃ best' count', BestInv L (i + 1) best' ∧ CountInv (p.tol * (p.batchSize : α)) L (i + 1) count' ∧
      (Stalled (p.tol * (p.batchSize : α)) L p.noChange i →
        epochLoop loss weights step p k (r + 1) i (D i).1 (D i).2 (st i) best count = .ok (weights (st (i + 1)))) ∧
      (¬ Stalled (p.tol * (p.batchSize : α)) L p.noChange i →
        epochLoop loss weights step p k (r + 1) i (D i).1 (D i).2 (st i) best count =
          epochLoop loss weights step p k r (i + 1) (D (i + 1)).1 (D (i + 1)).2 (st (i + 1)) best' count') := by
  have hcs := countInv_step _ L i count hc (worse p best (L i)) (worse_iff p L i best hb)
  refine ⟨_, _, bestInv_step L i best hb, hcs, fun hs => ?_, fun hs => ?_⟩
  · rw [epochLoop, he]
    simp only [Res.bind_ok]
    rw [if_pos ((count_ge_iff _ L i _ _ hcs).mpr hs)]
  · rw [epochLoop, he]
    simp only [Res.bind_ok]
    rw [if_neg fun h => hs ((count_ge_iff _ L i _ _ hcs).mp h)]

theorem epochLoop_run (p : Params α) (k : Nat) (D : Nat → DMat α × List α) (st : Nat → S) (L : Nat → α) (n : Nat)
    (hr : ∀ i < n, epoch loss weights step p k i (D i).1 (D i).2 (st i) = .ok (D (i + 1), st (i + 1), L i))
    (hn : ∀ j < n, ¬ Stalled (p.tol * (p.batchSize : α)) L p.noChange j) (r : Nat) :
    ∃ best count, BestInv L n best ∧ CountInv (p.tol * (p.batchSize : α)) L n count ∧
      epochLoop loss weights step p k (n + r) 0 (D 0).1 (D 0).2 (st 0) none 0 =
        epochLoop loss weights step p k r n (D n).1 (D n).2 (st n) best count := by
  induction n generalizing r with
  | zero =>
    refine ⟨none, 0, rfl, ?_, by rw [Nat.zero_add]⟩
    intro m
    simp
  | succ n ih =>
    obtain ⟨best, count, hb, hc, he⟩ := ih (fun i hi => hr i (by omega)) (fun j hj => hn j (by omega)) (r + 1)
    obtain ⟨best', count', hb', hc', _, hs⟩ := epochLoop_step loss weights step p k D st L n r (hr n (by omega)) best count hb hc
    refine ⟨best', count', hb', hc', ?_⟩
    rw [← hs (hn n (by omega)), ← he]
    congr 1
    omega

theorem optimize_ok (p : Params α) (hp : p.batchSize ≠ 0) (X : DMat α) (y : List α) (s : S) (i : Nat) (hi : i < p.maxIter)
    (D : Nat → DMat α × List α) (st : Nat → S) (L : Nat → α)
    (hr : IsRun loss weights step p (X.nrows / p.batchSize) X y s (i + 1) D st L)
    (hs : FirstStall (p.tol * (p.batchSize : α)) L p.noChange i) :
    optimize loss weights step p X y s = .ok (weights (st (i + 1))) := by
  obtain ⟨h0, hs0, hr⟩ := (isRun_iff _ _ _ _ _ _ _ _ _ _ _ _).mp hr
  obtain ⟨best, count, hb, hc, he⟩ := epochLoop_run loss weights step p _ D st L i (fun j hj => hr j (by omega)) hs.2
    (p.maxIter - i - 1 + 1)
  obtain ⟨_, _, _, _, hok, _⟩ := epochLoop_step loss weights step p _ D st L i (p.maxIter - i - 1) (hr i (by omega)) best count hb hc
  unfold optimize
  rw [if_neg hp]
  rw [hok hs.1, h0, hs0] at he
  rw [← he]
  congr 1
  omega

theorem optimize_throw (p : Params α) (hp : p.batchSize ≠ 0) (X : DMat α) (y : List α) (s : S)
    (D : Nat → DMat α × List α) (st : Nat → S) (L : Nat → α)
    (hr : IsRun loss weights step p (X.nrows / p.batchSize) X y s p.maxIter D st L)
    (hs : ∀ i < p.maxIter, ¬ Stalled (p.tol * (p.batchSize : α)) L p.noChange i) :
    optimize loss weights step p X y s = .throw .runtimeError := by
  obtain ⟨h0, hs0, hr⟩ := (isRun_iff _ _ _ _ _ _ _ _ _ _ _ _).mp hr
  obtain ⟨best, count, hb, hc, he⟩ := epochLoop_run loss weights step p _ D st L p.maxIter hr hs 0
  unfold optimize
  rw [if_neg hp]
  rw [h0, hs0] at he
  exact he

/-- An epoch that fails makes the whole call fail, if the loop gets there. -/
theorem optimize_fail (p : Params α) (hp : p.batchSize ≠ 0) (X : DMat α) (y : List α) (s : S) (n : Nat) (hn : n < p.maxIter)
    (D : Nat → DMat α × List α) (st : Nat → S) (L : Nat → α)
    (hr : IsRun loss weights step p (X.nrows / p.batchSize) X y s n D st L)
    (hs : ∀ i < n, ¬ Stalled (p.tol * (p.batchSize : α)) L p.noChange i)
    (hf : ∀ e, epoch loss weights step p (X.nrows / p.batchSize) n (D n).1 (D n).2 (st n) ≠ .ok e) (w : W) :
    optimize loss weights step p X y s ≠ .ok w := by
  obtain ⟨h0, hs0, hr⟩ := (isRun_iff _ _ _ _ _ _ _ _ _ _ _ _).mp hr
  obtain ⟨best, count, hb, hc, he⟩ := epochLoop_run loss weights step p _ D st L n hr hs (p.maxIter - n - 1 + 1)
  unfold optimize
  rw [if_neg hp]
  rw [h0, hs0, show n + (p.maxIter - n - 1 + 1) = p.maxIter by omega] at he
  rw [he, epochLoop]
  intro hw
  obtain ⟨e, he, _⟩ := Res.bind_eq_ok.mp hw
  exact hf e he

/-- The longest run of at most `n` epochs. -/
theorem exists_run (p : Params α) (k : Nat) (X : DMat α) (y : List α) (s : S) (n : Nat) :
    (∃ D st L, IsRun loss weights step p k X y s n D st L) ∨
    ∃ m < n, ∃ D st L, IsRun loss weights step p k X y s m D st L ∧
      ∀ e, epoch loss weights step p k m (D m).1 (D m).2 (st m) ≠ .ok e := by
  induction n with
  | zero => exact Or.inl ⟨fun _ => (X, y), fun _ => s, fun _ => 0, rfl, rfl, fun i hi => absurd hi (Nat.not_lt_zero i)⟩
  | succ n ih =>
    rcases ih with ⟨D, st, L, hr⟩ | ⟨m, hm, h⟩
    · by_cases he : ∃ e, epoch loss weights step p k n (D n).1 (D n).2 (st n) = .ok e
      · obtain ⟨⟨d, s', l⟩, he⟩ := he
        obtain ⟨h0, hs0, hr⟩ := (isRun_iff _ _ _ _ _ _ _ _ _ _ _ _).mp hr
        refine Or.inl ⟨Function.update D (n + 1) d, Function.update st (n + 1) s', Function.update L n l, ?_⟩
        refine (isRun_iff _ _ _ _ _ _ _ _ _ _ _ _).mpr ⟨?_, ?_, fun i hi => ?_⟩
        · rw [Function.update_of_ne (by omega), h0]
        · rw [Function.update_of_ne (by omega), hs0]
        · rw [Function.update_of_ne (by omega : i ≠ n + 1), Function.update_of_ne (by omega : i ≠ n + 1)]
          rcases Nat.lt_succ_iff_lt_or_eq.mp hi with hlt | rfl
          · rw [Function.update_of_ne (by omega : i + 1 ≠ n + 1), Function.update_of_ne (by omega : i + 1 ≠ n + 1),
              Function.update_of_ne (by omega : i ≠ n)]
            exact hr i hlt
          · rw [Function.update_self, Function.update_self, Function.update_self]
            exact he
      · push Not at he
        exact Or.inr ⟨n, by omega, D, st, L, hr, he⟩
    · exact Or.inr ⟨m, by omega, h⟩

theorem firstStall_or (slack : α) (L : Nat → α) (m n : Nat) :
    (∃ i < n, FirstStall slack L m i) ∨ ∀ i < n, ¬ Stalled slack L m i := by
  classical
  by_cases h : ∃ i < n, Stalled slack L m i
  · have hex : ∃ i, i < n ∧ Stalled slack L m i := h
    refine Or.inl ⟨Nat.find hex, (Nat.find_spec hex).1, (Nat.find_spec hex).2, fun j hj hs => ?_⟩
    exact Nat.find_min hex hj ⟨hj.trans (Nat.find_spec hex).1, hs⟩
  · push Not at h
    exact Or.inr h

theorem isRun_mono (p : Params α) (k : Nat) (X : DMat α) (y : List α) (s : S) {n m : Nat} (h : m ≤ n)
    {D : Nat → DMat α × List α} {st : Nat → S} {L : Nat → α} (hr : IsRun loss weights step p k X y s n D st L) :
    IsRun loss weights step p k X y s m D st L := ⟨hr.1, hr.2.1, fun i hi => hr.2.2 i (by omega)⟩

end

end OpenML.SGD
