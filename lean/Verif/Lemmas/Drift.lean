import Verif.Spec.Drift
import Verif.Props.SGD
import Mathlib.Algebra.Order.BigOperators.Group.Finset
import Mathlib.Tactic.GCongr

/-!
# How far a run of a mini-batch optimizer can get
-/

namespace OpenML.Drift

open Spec SGD
open scoped BigOperators

variable {α : Type} [Field α] [LinearOrder α] [IsStrictOrderedRing α]

section Run
variable {W S : Type} (loss : LossFn α W) (weights : S → W) (step : Step α S) (far : α → W → W → Prop) (Inv : S → Prop)
  (P : α → Prop) (c : α) (refl : ∀ w, far 0 w w) (trans : ∀ r s u v w, far r u v → far s v w → far (r + s) u w)
  (hstep : ∀ s X y lr j s', P lr → Inv s → step s X y lr j = .ok s' → Inv s' ∧ far (c * |lr|) (weights s) (weights s'))

include refl trans hstep

theorem pass (b k : Nat) (X : DMat α) (y : List α) (lr : α) (hlr : P lr) (s s' : S) (total : α) (hs : Inv s)
    (h : IsPass loss weights step b k X y lr s s' total) : Inv s' ∧ far ((k : α) * (c * |lr|)) (weights s) (weights s') := by
  obtain ⟨t, l, rfl, rfl, rfl, hk⟩ := h
  have : ∀ j ≤ k, Inv (t j) ∧ far ((j : α) * (c * |lr|)) (weights (t 0)) (weights (t j)) := by
    intro j
    induction j with
    | zero => intro _; exact ⟨hs, by simpa using refl _⟩
    | succ j ih =>
      intro hj
      obtain ⟨h1, h2⟩ := ih (by omega)
      obtain ⟨h3, h4⟩ := hstep _ _ _ lr j _ hlr h1 (hk j (by omega)).2.2.1
      refine ⟨h3, ?_⟩
      have := trans _ _ _ _ _ h2 h4
      rw [Nat.cast_succ, add_mul, one_mul]
      exact this
  exact this k (le_refl _)

theorem run (p : Params α) (eta : Nat → α) (he : ∀ i, p.decay i = .ok (eta i)) (hP : ∀ i, P (eta i)) (k : Nat) (X : DMat α) (y : List α)
    (s : S) (hs : Inv s) (n : Nat) (D : Nat → DMat α × List α) (st : Nat → S) (L : Nat → α)
    (h : IsRun loss weights step p k X y s n D st L) :
    ∀ i ≤ n, Inv (st i) ∧ far (c * k * ∑ j ∈ Finset.range i, |eta j|) (weights s) (weights (st i)) := by
  intro i
  induction i with
  | zero =>
    intro _
    rw [h.2.1]
    exact ⟨hs, by simpa using refl _⟩
  | succ i ih =>
    intro hi
    obtain ⟨h1, h2⟩ := ih (by omega)
    obtain ⟨_, lr, hlr, hp⟩ := h.2.2 i (by omega)
    rw [he i, Res.ok.injEq] at hlr
    subst hlr
    obtain ⟨h3, h4⟩ := pass loss weights step far Inv P c refl trans hstep _ _ _ _ _ (hP i) _ _ _ h1 hp
    refine ⟨h3, ?_⟩
    have := trans _ _ _ _ _ h2 h4
    rw [Finset.sum_range_succ, mul_add]
    rwa [show c * (k : α) * |eta i| = (k : α) * (c * |eta i|) by ring]

theorem published (p : Params α) (hb : p.batchSize ≠ 0) (eta : Nat → α) (he : ∀ i, p.decay i = .ok (eta i)) (hP : ∀ i, P (eta i))
    (X : DMat α) (y : List α) (s : S) (hs : Inv s) (w : W) (h : optimize loss weights step p X y s = .ok w) :
    ∃ K, 0 < K ∧ K ≤ p.maxIter ∧ far (c * ((X.nrows / p.batchSize : Nat) : α) * ∑ j ∈ Finset.range K, |eta j|) (weights s) w := by
  obtain ⟨i, hi, D, st, L, hr, _, rfl⟩ := (C47_publishes_iff loss weights step p hb X y s w).mp h
  exact ⟨i + 1, by omega, by omega, (run loss weights step far Inv P c refl trans hstep p eta he hP _ X y s hs (i + 1) D st L hr (i + 1)
    (le_refl _)).2⟩

end Run

theorem within_refl (w : List α) : Within 0 w w := ⟨rfl, fun j => by simp⟩

theorem within_trans (r s : α) (u v w : List α) (h : Within r u v) (h' : Within s v w) : Within (r + s) u w := by
  refine ⟨h'.1.trans h.1, fun j => ?_⟩
  have := abs_add_le (v.getD j 0 - u.getD j 0) (w.getD j 0 - v.getD j 0)
  rw [show v.getD j 0 - u.getD j 0 + (w.getD j 0 - v.getD j 0) = w.getD j 0 - u.getD j 0 by ring] at this
  exact this.trans (add_le_add (h.2 j) (h'.2 j))

theorem grown_refl (w : List α) : Grown 0 w w := ⟨rfl, fun j => by simp⟩

theorem grown_trans (r s : α) (u v w : List α) (h : Grown r u v) (h' : Grown s v w) : Grown (r + s) u w := by
  refine ⟨h'.1.trans h.1, fun j => ?_⟩
  linarith [h.2 j, h'.2 j]

theorem grown_of_within (r : α) (w v : List α) (h : Within r w v) : Grown r w v := by
  refine ⟨h.1, fun j => ?_⟩
  have := abs_add_le (v.getD j 0 - w.getD j 0) (w.getD j 0)
  rw [sub_add_cancel] at this
  linarith [h.2 j]

theorem withinMat_refl (w : DMat α) : WithinMat 0 w w := ⟨rfl, rfl, fun _ => within_refl _⟩

theorem withinMat_trans (r s : α) (u v w : DMat α) (h : WithinMat r u v) (h' : WithinMat s v w) : WithinMat (r + s) u w :=
  ⟨h'.1.trans h.1, h'.2.1.trans h.2.1, fun i => within_trans r s _ _ _ (h.2.2 i) (h'.2.2 i)⟩

theorem clip_abs (a : α) : |max (min a (10 ^ 10)) (-10 ^ 10)| ≤ 10 ^ 10 := by
  rw [abs_le]
  exact ⟨le_max_right _ _, max_le (min_le_right _ _) (by norm_num)⟩

theorem clipGrad_abs (g : List α) (j : Nat) : |(clipGrad g).getD j 0| ≤ 10 ^ 10 := by
  rw [clipGrad_eq, List.getD_eq_getElem?_getD, List.getElem?_map]
  cases g[j]? with
  | none => simp
  | some a => exact clip_abs a

/-- A policy moves each weight by at most the factor times the rate times the gradient. -/
theorem policy_within (update : List α → List α → α → Res (List α)) (c : α) (hu : Policy update c) (w g v : List α) (lr B : α)
    (hB : ∀ j, |g.getD j 0| ≤ B) (h : update w g lr = .ok v) : Within (c * B * |lr|) w v := by
  have hB0 : 0 ≤ B := (abs_nonneg _).trans (hB 0)
  have key : ∀ f : α → α, ∀ e : α, (∀ a, f a = e * (lr * a)) → g.length = w.length →
      Within (|e| * B * |lr|) w (List.zipWith (· - ·) w (g.map f)) := by
    intro f e hf hl
    refine ⟨by simp [hl], fun j => ?_⟩
    by_cases hj : j < w.length
    · rw [getD_zipWith _ _ _ _ _ hj (by simpa [hl] using hj)]
      have : (g.map f).getD j 0 = e * (lr * g.getD j 0) := by
        have hj' : j < g.length := by omega
        simp [List.getD_eq_getElem?_getD, hj', hf]
      rw [this, show w.getD j 0 - e * (lr * g.getD j 0) - w.getD j 0 = -(e * (lr * g.getD j 0)) by ring, abs_neg, abs_mul, abs_mul]
      have h1 := mul_le_mul_of_nonneg_left (hB j) (mul_nonneg (abs_nonneg e) (abs_nonneg lr))
      linarith
    · have h1 : (List.zipWith (· - ·) w (g.map f)).getD j 0 = 0 := by
        simp [List.getD_eq_getElem?_getD, List.getElem?_zipWith, List.getElem?_eq_none (not_lt.mp hj)]
      have h2 : w.getD j 0 = 0 := by simp [List.getD_eq_getElem?_getD, List.getElem?_eq_none (not_lt.mp hj)]
      rw [h1, h2, sub_zero, abs_zero]
      positivity
  have zr : ∀ (n : Nat) (l : List α), n = l.length → List.zipWith (· + ·) (List.replicate n (0 : α)) l = l := by
    rintro n l rfl
    induction l with
    | nil => rfl
    | cons a l ih => simpa [List.replicate_succ] using ih
  have zs : ∀ (n : Nat) (l : List α), n = l.length → List.zipWith (· - ·) l (List.replicate n (0 : α)) = l := by
    rintro n l rfl
    induction l with
    | nil => rfl
    | cons a l ih => simpa [List.replicate_succ] using ih
  rcases hu with ⟨rfl, rfl⟩ | ⟨mu, rfl, rfl⟩ | ⟨mu, rfl, rfl⟩
  · unfold vanillaUpdate Loss.subV at h
    split at h <;> rename_i hl
    · rw [Res.ok.injEq] at h
      subst h
      have := key (fun a => lr * a) 1 (fun a => by ring) (by simpa using hl.symm)
      rwa [abs_one] at this
    · cases h
  · unfold momentumUpdate at h
    simp only [Res.bind_eq_ok] at h
    obtain ⟨v1, h1, h2⟩ := h
    unfold Loss.addV at h1
    split at h1 <;> rename_i hl
    · simp only [List.length_map, List.length_replicate] at hl
      simp only [List.map_replicate, zero_mul] at h1
      rw [zr _ _ (by simpa using hl), Res.ok.injEq] at h1
      subst h1
      unfold Loss.subV at h2
      rw [if_pos (by simpa using hl), Res.ok.injEq] at h2
      subst h2
      have := key (fun a => a * lr) 1 (fun a => by ring) hl.symm
      rwa [abs_one] at this
    · cases h1
  · unfold nesterovUpdate at h
    simp only [Res.bind_eq_ok] at h
    obtain ⟨v1, h1, v2, h2, v3, h3, h4⟩ := h
    unfold Loss.addV at h1
    split at h1 <;> rename_i hl
    · simp only [List.length_map, List.length_replicate] at hl
      simp only [List.map_replicate, mul_zero] at h1
      rw [zr _ _ (by simpa using hl), Res.ok.injEq] at h1
      subst h1
      unfold Loss.subV at h2
      rw [if_pos (by simpa using hl.symm), zs _ _ (by simpa using hl), Res.ok.injEq] at h2
      subst h2
      unfold Loss.addV at h3
      rw [if_pos (by simp), Res.ok.injEq] at h3
      have h5 : v3 = g.map fun a => (1 + mu) * (lr * a) := by
        rw [← h3]
        apply List.ext_getElem
        · simp
        · intro i _ _
          simp
          ring
      subst h5
      unfold Loss.subV at h4
      rw [if_pos (by simpa using hl), Res.ok.injEq] at h4
      subst h4
      exact key _ (1 + mu) (fun a => rfl) hl.symm
    · cases h1

theorem vanillaMat_within (w g v : DMat α) (lr : α) (hw : ∀ i, (w.rows.getD i []).length = (g.rows.getD i []).length)
    (h : vanillaUpdateMat w (clipGradMat g) lr = .ok v) : WithinMat (10 ^ 10 * |lr|) w v := by
  unfold vanillaUpdateMat at h
  split at h <;> rename_i hs
  · rw [Res.ok.injEq] at h
    subst h
    have hl : w.rows.length = g.rows.length := by simpa [clipGradMat, MatOps.clip, DMat.nrows] using hs.2
    refine ⟨rfl, by simp [clipGradMat, MatOps.clip, hl], fun i => ?_⟩
    by_cases hi : i < w.rows.length
    · have hi' : i < g.rows.length := by omega
      have hwi := hw i
      have e : (List.zipWith (List.zipWith fun a g => a - lr * g) w.rows (clipGradMat g).rows).getD i [] =
          List.zipWith (· - ·) (w.rows.getD i []) ((clipGrad (g.rows.getD i [])).map fun a => lr * a) := by
        simp [List.getD_eq_getElem?_getD, hi, hi', clipGradMat, MatOps.clip, clipGrad_eq, List.zipWith_map_right]
      dsimp only
      rw [e]
      have := policy_within vanillaUpdate 1 (Or.inl ⟨rfl, rfl⟩) (w.rows.getD i []) (clipGrad (g.rows.getD i [])) _ lr (10 ^ 10)
        (clipGrad_abs _) (by
          unfold vanillaUpdate Loss.subV
          rw [if_pos (by rw [List.length_map, clipGrad_eq, List.length_map]; exact hwi)])
      rwa [one_mul] at this
    · have h1 : (List.zipWith (List.zipWith fun a g => a - lr * g) w.rows (clipGradMat g).rows).getD i [] = [] := by
        simp [List.getD_eq_getElem?_getD, List.getElem?_zipWith, List.getElem?_eq_none (not_lt.mp hi)]
      have h2 : w.rows.getD i [] = [] := by simp [List.getD_eq_getElem?_getD, List.getElem?_eq_none (not_lt.mp hi)]
      dsimp only
      rw [h1, h2]
      exact ⟨rfl, fun j => by simp⟩
  · cases h

end OpenML.Drift
