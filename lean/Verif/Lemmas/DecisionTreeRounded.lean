import Verif.Model.DecisionTreeRounded
import Verif.Lemmas.DecisionTreeFit

/-!
# Lemmas about decision trees with any function for the thresholds
-/

set_option linter.unusedSectionVars false

namespace OpenML.DTree
open Spec

variable {α : Type} [Field α] [LinearOrder α] [IsStrictOrderedRing α] {R : Type} [LinearOrder R] {ν : Type}

theorem mem_midpointsBy (mid : α → α → α) (l : List α) (t : α) :
    t ∈ midpointsBy mid l ↔ ∃ i a b, l[i]? = some a ∧ l[i + 1]? = some b ∧ t = mid a b := by
  induction l with
  | nil => simp [midpointsBy]
  | cons a l ih =>
    cases l with
    | nil => simp [midpointsBy]
    | cons b l =>
      simp only [midpointsBy, List.mem_cons, ih]
      constructor
      · rintro (rfl | ⟨i, u, v, h1, h2, h3⟩)
        · exact ⟨0, a, b, rfl, rfl, rfl⟩
        · exact ⟨i + 1, u, v, h1, h2, h3⟩
      · rintro ⟨i, u, v, h1, h2, h3⟩
        cases i with
        | zero =>
          simp at h1 h2
          subst h1 h2
          exact Or.inl h3
        | succ i => exact Or.inr ⟨i, u, v, h1, h2, h3⟩

theorem thresholds_okBy (mid : α → α → α) (c : List α) (h3 : 3 ≤ c.length) : ∃ ts, thresholdsBy mid c = .ok ts ∧ ts.Pairwise (· < ·) ∧ ts ≠ [] ∧
    ∀ t, t ∈ ts ↔ ∃ i a b, (c.insertionSort (· ≤ ·))[i]? = some a ∧ (c.insertionSort (· ≤ ·))[i + 1]? = some b ∧
      t = mid a b := by
  obtain ⟨r, h1, h2, h4⟩ := KDTree.argsortVec_ok c h3
  have hm : mapRes (readAt c) r = .ok (r.filterMap (c[·]?)) :=
    Lists.mapRes_readAt c r fun i hi => List.mem_range.mp (h2.mem_iff.mp hi)
  have hs : r.filterMap (c[·]?) = c.insertionSort (· ≤ ·) := by
    refine List.Perm.eq_of_pairwise (le := (· ≤ ·)) (fun a b _ _ => le_antisymm) h4 (List.pairwise_insertionSort _ _) ?_
    exact (Lists.gather_perm c r h2).trans (List.perm_insertionSort _ _).symm
  obtain ⟨u1, u2⟩ := VecOps.stdUnique_sorted _ (VecOps.stdSort_sorted (midpointsBy mid (c.insertionSort (· ≤ ·))))
  have hmem : ∀ t, t ∈ VecOps.stdUnique (VecOps.stdSort (midpointsBy mid (c.insertionSort (· ≤ ·)))) ↔ _ := fun t =>
    (u2 t).trans (VecOps.mem_stdSort.trans (mem_midpointsBy mid _ t))
  refine ⟨VecOps.stdUnique (VecOps.stdSort (midpointsBy mid (c.insertionSort (· ≤ ·)))), ?_, u1, ?_, hmem⟩
  · simp only [thresholdsBy, h1, Res.bind_ok, hm, hs]
  · intro h0
    have hl : (c.insertionSort (· ≤ ·)).length = c.length := List.length_insertionSort _ _
    have := (hmem (mid (c.insertionSort (· ≤ ·))[0] (c.insertionSort (· ≤ ·))[1])).mpr
      ⟨0, _, _, List.getElem?_eq_getElem (by omega), List.getElem?_eq_getElem (by omega), rfl⟩
    rw [h0] at this
    simp at this

/-- Nodes with one or two samples: reading the order returned by `argsort` goes out of bounds. -/
theorem thresholds_smallBy (mid : α → α → α) (c : List α) (h : c.length = 1 ∨ c.length = 2) : thresholdsBy mid c = .ub := by
  rcases h with h | h
  · simp only [thresholdsBy, KDTree.argsortVec_one c h, Res.bind_ok]
    rw [Lists.mapRes_readAt_ub c 1 [] (by omega)]
    rfl
  · simp only [thresholdsBy, KDTree.argsortVec_two c h, Res.bind_ub]

section
variable (mid : α → α → α) (imp : List α → List α → List α → Res R) (X : DMat α) (hx : X.WF) (y : List α) (hy : y.length = X.nrows)
include hx hy

theorem tryFeatures_specBy (fs : List Nat) (hfs : ∀ f ∈ fs, f < X.ncols) (b b' : Best α R)
    (h : tryFeaturesBy mid imp X y fs b = .ok b') : ∃ tss, List.Forall₂ (fun f ts => thresholdsBy mid (X.col f) = .ok ts) fs tss ∧
      Scanned imp X y ((fs.zip tss).flatMap fun q => q.2.map fun t => (q.1, t)) b b' := by
  induction fs generalizing b with
  | nil => cases h; exact ⟨[], .nil, by simp, le_rfl, Or.inl rfl⟩
  | cons f fs ih =>
    simp only [tryFeaturesBy, Res.bind_eq_ok] at h
    obtain ⟨ts, h1, b1, h2, h3⟩ := h
    obtain ⟨tss, h4, h5⟩ := ih (fun g hg => hfs g (by simp [hg])) _ h3
    refine ⟨ts :: tss, .cons h1 h4, ?_⟩
    simp only [List.zip_cons_cons, List.flatMap_cons]
    exact (tryThresholds_spec imp X hx y hy f (hfs f (by simp)) ts b b1 h2).append imp X y h5

theorem bestSplit_specBy (start : R) (b : Best α R) (h : bestSplitBy mid start imp X y = .ok b) :
    ∃ tss, List.Forall₂ (fun f ts => thresholdsBy mid (X.col f) = .ok ts) (List.range X.ncols) tss ∧
      Scanned imp X y (((List.range X.ncols).zip tss).flatMap fun q => q.2.map fun t => (q.1, t)) ⟨start, none⟩ b :=
  tryFeatures_specBy mid imp X hx y hy _ (fun _ h => List.mem_range.mp h) _ _ h

theorem bestSplit_ltBy (start : R) (b : Best α R) (h : bestSplitBy mid start imp X y = .ok b) (f : Nat) (t : α)
    (hs : b.split = some (f, t)) : f < X.ncols ∧ score imp X y f t = .ok b.impurity ∧ start < b.impurity := by
  obtain ⟨tss, h1, h2, h3, h4⟩ := bestSplit_specBy mid imp X hx y hy start b h
  rcases h4 with rfl | ⟨pre, c, post, e1, e2, e3, e4, e5⟩
  · cases hs
  · rw [hs] at e2
    cases e2
    refine ⟨?_, e3, e4⟩
    have hmem : (f, t) ∈ ((List.range X.ncols).zip tss).flatMap fun q => q.2.map fun t => (q.1, t) := by
      rw [e1]; simp
    simp only [List.mem_flatMap, List.mem_map] at hmem
    obtain ⟨q, hq, u, -, hqu⟩ := hmem
    have := (List.of_mem_zip hq).1
    rw [List.mem_range] at this
    simp only [Prod.mk.injEq] at hqu
    omega

theorem tryFeatures_totalBy (hi : ∀ l r, ∃ v, imp y l r = .ok v) (h3 : 3 ≤ X.nrows) (fs : List Nat) (hfs : ∀ f ∈ fs, f < X.ncols)
    (b : Best α R) : ∃ b', tryFeaturesBy mid imp X y fs b = .ok b' := by
  induction fs generalizing b with
  | nil => exact ⟨b, rfl⟩
  | cons f fs ih =>
    have hf := hfs f (by simp)
    obtain ⟨ts, h1, -⟩ := thresholds_okBy mid (X.col f) (by rw [DMat.length_col hx hf]; exact h3)
    obtain ⟨b1, h2⟩ := tryThresholds_total imp X hx y hy hi f hf ts b
    simp only [tryFeaturesBy, h1, Res.bind_ok, h2]
    exact ih (fun g hg => hfs g (by simp [hg])) b1

theorem bestSplit_totalBy (hi : ∀ l r, ∃ v, imp y l r = .ok v) (h3 : 3 ≤ X.nrows) (start : R) :
    ∃ b, bestSplitBy mid start imp X y = .ok b :=
  tryFeatures_totalBy mid imp X hx y hy hi h3 _ (fun _ h => List.mem_range.mp h) _

end

/-- The outcome of `build_tree` on one node. -/
theorem build_casesBy (mid : α → α → α) (A : Algo α ν R) (P : Params R) (fuel : Nat) (X : DMat α) (hx : X.WF) (y : List α)
    (hy : y.length = X.nrows) (depth : Nat) (T : Tree α ν) (h : buildBy mid A P (fuel + 1) X y depth = .ok T) :
    ∃ v, A.nodeValue y = .ok v ∧ (T = .node v none .null .null ∨ ∃ f t l r b, T = .node v (some (f, t)) l r ∧
      A.stop y = false ∧ P.minSplit ≤ X.nrows ∧ depth ≤ P.maxDepth ∧ bestSplitBy mid A.start A.impurity X y = .ok b ∧
      b.split = some (f, t) ∧ P.minDecrease < b.impurity ∧ f < X.ncols ∧
      (if P.minLeaf ≤ (part X y f fun a => decide (a ≤ t)).length then
        buildBy mid A P fuel ⟨X.ncols, (part X y f fun a => decide (a ≤ t)).map Prod.fst⟩
          ((part X y f fun a => decide (a ≤ t)).map Prod.snd) (depth + 1) = .ok l else l = .null) ∧
      (if P.minLeaf ≤ (part X y f fun a => decide (t < a)).length then
        buildBy mid A P fuel ⟨X.ncols, (part X y f fun a => decide (t < a)).map Prod.fst⟩
          ((part X y f fun a => decide (t < a)).map Prod.snd) (depth + 1) = .ok r else r = .null)) := by
  simp only [buildBy, Res.bind_eq_ok] at h
  obtain ⟨v, hv, h⟩ := h
  refine ⟨v, hv, ?_⟩
  split at h
  · cases h; exact Or.inl rfl
  next hstop =>
  split at h
  · cases h; exact Or.inl rfl
  next hsplit =>
  split at h
  · cases h; exact Or.inl rfl
  next hdepth =>
  rw [Res.bind_eq_ok] at h
  obtain ⟨b, hb, h⟩ := h
  split at h
  · cases h; exact Or.inl rfl
  next f t hs =>
  split at h
  · cases h; exact Or.inl rfl
  next hdec =>
  right
  have hf := (bestSplit_ltBy mid A.impurity X hx y hy A.start b hb f t hs).1
  simp only [gather_rows X hx y hy f hf, gather_targets X hx y hy f hf, Res.bind_ok, List.length_map] at h
  by_cases h1 : P.minLeaf ≤ (part X y f fun a => decide (a ≤ t)).length
  · rw [if_pos h1, Res.bind_eq_ok] at h
    obtain ⟨l, hl, h⟩ := h
    by_cases h2 : P.minLeaf ≤ (part X y f fun a => decide (t < a)).length
    · rw [if_pos h2, Res.bind_eq_ok] at h
      obtain ⟨r, hr, h⟩ := h
      exact ⟨f, t, l, r, b, (Res.ok.inj h).symm, by simpa using hstop, by omega, by omega, hb, hs, not_le.mp hdec, hf,
        by rw [if_pos h1]; exact hl, by rw [if_pos h2]; exact hr⟩
    · rw [if_neg h2] at h
      exact ⟨f, t, l, .null, b, (Res.ok.inj h).symm, by simpa using hstop, by omega, by omega, hb, hs, not_le.mp hdec, hf,
        by rw [if_pos h1]; exact hl, by rw [if_neg h2]⟩
  · rw [if_neg h1] at h
    by_cases h2 : P.minLeaf ≤ (part X y f fun a => decide (t < a)).length
    · rw [if_pos h2, Res.bind_eq_ok] at h
      obtain ⟨r, hr, h⟩ := h
      exact ⟨f, t, .null, r, b, (Res.ok.inj h).symm, by simpa using hstop, by omega, by omega, hb, hs, not_le.mp hdec, hf,
        by rw [if_neg h1], by rw [if_pos h2]; exact hr⟩
    · rw [if_neg h2] at h
      exact ⟨f, t, .null, .null, b, (Res.ok.inj h).symm, by simpa using hstop, by omega, by omega, hb, hs, not_le.mp hdec, hf,
        by rw [if_neg h1], by rw [if_neg h2]⟩

theorem build_ne_nullBy (mid : α → α → α) (A : Algo α ν R) (P : Params R) (fuel : Nat) (X : DMat α) (hx : X.WF) (y : List α)
    (hy : y.length = X.nrows) (depth : Nat) (T : Tree α ν) (h : buildBy mid A P fuel X y depth = .ok T) : T ≠ .null := by
  cases fuel with
  | zero => cases h
  | succ fuel =>
    obtain ⟨v, -, h⟩ := build_casesBy mid A P fuel X hx y hy depth T h
    rcases h with rfl | ⟨f, t, l, r, b, rfl, -⟩ <;> simp

/-- Everything the fitted tree satisfies at its nodes. -/
theorem build_invBy (mid : α → α → α) (A : Algo α ν R) (P : Params R) (fuel : Nat) (X : DMat α) (hx : X.WF) (y : List α)
    (hy : y.length = X.nrows) (depth : Nat) (T : Tree α ν) (h : buildBy mid A P fuel X y depth = .ok T) (p : List Bool) :
    (∀ v, valueAt T p = some v → A.nodeValue (targetsAt T X.rows y p) = .ok v ∧
      (p ≠ [] → depth + p.length ≤ P.maxDepth + 1 ∧ P.minLeaf ≤ (targetsAt T X.rows y p).length)) ∧
    (IsSplit T p → depth + p.length ≤ P.maxDepth ∧ P.minSplit ≤ (targetsAt T X.rows y p).length) := by
  induction fuel generalizing X y depth T p with
  | zero => cases h
  | succ fuel ih =>
    obtain ⟨w, hw, h⟩ := build_casesBy mid A P fuel X hx y hy depth T h
    rcases h with rfl | ⟨f, t, l, r, b, rfl, hstop, hms, hd, hb, hs, hdec, hf, hl, hr⟩
    · cases p with
      | nil =>
        constructor
        · intro v hv
          cases hv
          rw [targets_root _ _ _ (by simp) hy]
          exact ⟨hw, by simp⟩
        · intro h; simp [IsSplit] at h
      | cons c p => cases c <;> simp [valueAt, IsSplit]
    · cases p with
      | nil =>
        rw [targets_root _ _ _ (by simp) hy]
        constructor
        · intro v hv
          cases hv
          exact ⟨hw, by simp⟩
        · intro _
          exact ⟨by simpa using hd, by omega⟩
      | cons c p =>
        have key : ∀ (q : α → Bool) (S : Tree α ν),
            (if P.minLeaf ≤ (part X y f q).length then
              buildBy mid A P fuel ⟨X.ncols, (part X y f q).map Prod.fst⟩ ((part X y f q).map Prod.snd) (depth + 1) = .ok S
              else S = .null) →
            (∀ v, valueAt S p = some v →
              A.nodeValue (targetsAt S ((part X y f q).map Prod.fst) ((part X y f q).map Prod.snd) p) = .ok v ∧
              depth + 1 + p.length ≤ P.maxDepth + 1 ∧
              P.minLeaf ≤ (targetsAt S ((part X y f q).map Prod.fst) ((part X y f q).map Prod.snd) p).length) ∧
            (IsSplit S p → depth + 1 + p.length ≤ P.maxDepth ∧
              P.minSplit ≤ (targetsAt S ((part X y f q).map Prod.fst) ((part X y f q).map Prod.snd) p).length) := by
          intro q S hS
          split at hS
          · next hm =>
            obtain ⟨i1, i2⟩ := ih ⟨X.ncols, (part X y f q).map Prod.fst⟩ (part_wf X hx y f q) _ (part_len X y f q) _ S hS p
            refine ⟨?_, i2⟩
            intro v hv
            obtain ⟨j1, j2⟩ := i1 v hv
            refine ⟨j1, ?_⟩
            cases p with
            | nil =>
              have hne := build_ne_nullBy mid A P fuel _ (part_wf X hx y f q) _ (part_len X y f q) _ S hS
              rw [targets_root S _ _ hne (by simp)]
              simpa using ⟨hd, hm⟩
            | cons c' p' => exact j2 (by simp)
          · subst hS
            simp [valueAt, IsSplit]
        cases c with
        | true =>
          rw [targets_left]
          obtain ⟨k1, k2⟩ := key _ l hl
          refine ⟨fun v hv => ?_, fun hsp => ?_⟩
          · obtain ⟨j1, j2, j3⟩ := k1 v hv
            exact ⟨j1, fun _ => ⟨by simp only [List.length_cons]; omega, j3⟩⟩
          · obtain ⟨j1, j2⟩ := k2 hsp
            exact ⟨by simp only [List.length_cons]; omega, j2⟩
        | false =>
          rw [targets_right]
          obtain ⟨k1, k2⟩ := key _ r hr
          refine ⟨fun v hv => ?_, fun hsp => ?_⟩
          · obtain ⟨j1, j2, j3⟩ := k1 v hv
            exact ⟨j1, fun _ => ⟨by simp only [List.length_cons]; omega, j3⟩⟩
          · obtain ⟨j1, j2⟩ := k2 hsp
            exact ⟨by simp only [List.length_cons]; omega, j2⟩

/-- With `min_samples_leaf = 0` the descent always succeeds. -/
theorem route_totalBy (mid : α → α → α) (A : Algo α ν R) (P : Params R) (hm : P.minLeaf = 0) (fuel : Nat) (X : DMat α) (hx : X.WF) (y : List α)
    (hy : y.length = X.nrows) (depth : Nat) (T : Tree α ν) (h : buildBy mid A P fuel X y depth = .ok T) (x : List α)
    (hxl : x.length = X.ncols) : ∃ v, route x T = .ok v := by
  induction fuel generalizing X y depth T with
  | zero => cases h
  | succ fuel ih =>
    obtain ⟨w, hw, h⟩ := build_casesBy mid A P fuel X hx y hy depth T h
    rcases h with rfl | ⟨f, t, l, r, b, rfl, hstop, hms, hd, hb, hs, hdec, hf, hl, hr⟩
    · exact ⟨w, rfl⟩
    · rw [if_pos (by omega)] at hl hr
      have hl' := ih _ (part_wf X hx y f _) _ (part_len X y f _) _ l hl hxl
      have hr' := ih _ (part_wf X hx y f _) _ (part_len X y f _) _ r hr hxl
      have hne := build_ne_nullBy mid A P fuel _ (part_wf X hx y f _) _ (part_len X y f _) _ l hl
      cases l with
      | null => exact absurd rfl hne
      | node w' s' l' r' =>
        simp only [route, readAt_of_lt (show f < x.length by omega), Res.bind_ok]
        split
        · exact hl'
        · exact hr'

/-- Fitting returns normally if every node considered for splitting has at least three samples. -/
theorem build_totalBy (mid : α → α → α) (A : Algo α ν R) (P : Params R) (hs : 3 ≤ P.minSplit) (hv : ∀ y, ∃ v, A.nodeValue y = .ok v)
    (hi : ∀ y l r, ∃ v, A.impurity y l r = .ok v) (fuel : Nat) (X : DMat α) (hx : X.WF) (y : List α)
    (hy : y.length = X.nrows) (depth : Nat) (hd : P.maxDepth + 2 ≤ fuel + depth) (hd' : depth ≤ P.maxDepth + 1) :
    ∃ T, buildBy mid A P fuel X y depth = .ok T := by
  induction fuel generalizing X y depth with
  | zero => omega
  | succ fuel ih =>
    obtain ⟨v, hv'⟩ := hv y
    simp only [buildBy, hv', Res.bind_ok]
    split
    · exact ⟨_, rfl⟩
    split
    · exact ⟨_, rfl⟩
    next hms =>
    split
    · exact ⟨_, rfl⟩
    next hmd =>
    obtain ⟨b, hb⟩ := bestSplit_totalBy mid A.impurity X hx y hy (hi y) (by omega) A.start
    rw [hb, Res.bind_ok]
    split
    · exact ⟨_, rfl⟩
    next f t hft =>
    split
    · exact ⟨_, rfl⟩
    have hf := (bestSplit_ltBy mid A.impurity X hx y hy A.start b hb f t hft).1
    simp only [gather_rows X hx y hy f hf, gather_targets X hx y hy f hf, Res.bind_ok, List.length_map]
    obtain ⟨l, hl⟩ := ih _ (part_wf X hx y f fun a => decide (a ≤ t)) _ (part_len X y f _) (depth + 1) (by omega) (by omega)
    obtain ⟨r, hr⟩ := ih _ (part_wf X hx y f fun a => decide (t < a)) _ (part_len X y f _) (depth + 1) (by omega) (by omega)
    by_cases h1 : P.minLeaf ≤ (part X y f fun a => decide (a ≤ t)).length <;>
      by_cases h2 : P.minLeaf ≤ (part X y f fun a => decide (t < a)).length <;> simp [h1, h2, hl, hr]

/-- The children of a split node share out its samples. -/
theorem build_childrenBy (mid : α → α → α) (A : Algo α ν R) (P : Params R) (hm : P.minLeaf = 0) (fuel : Nat) (X : DMat α) (hx : X.WF) (y : List α)
    (hy : y.length = X.nrows) (depth : Nat) (T : Tree α ν) (h : buildBy mid A P fuel X y depth = .ok T) (p : List Bool)
    (hp : IsSplit T p) : (targetsAt T X.rows y p).Perm
      (targetsAt T X.rows y (p ++ [true]) ++ targetsAt T X.rows y (p ++ [false])) ∧
      (∃ v, valueAt T (p ++ [true]) = some v) ∧ ∃ v, valueAt T (p ++ [false]) = some v := by
  induction fuel generalizing X y depth T p with
  | zero => cases h
  | succ fuel ih =>
    obtain ⟨w, hw, h⟩ := build_casesBy mid A P fuel X hx y hy depth T h
    rcases h with rfl | ⟨f, t, l, r, b, rfl, hstop, hms, hd, hb, hs, hdec, hf, hl, hr⟩
    · cases p with
      | nil => simp [IsSplit] at hp
      | cons c p => cases c <;> simp [IsSplit] at hp
    · rw [if_pos (by omega)] at hl hr
      cases p with
      | nil =>
        have hln := build_ne_nullBy mid A P fuel _ (part_wf X hx y f _) _ (part_len X y f _) _ l hl
        have hrn := build_ne_nullBy mid A P fuel _ (part_wf X hx y f _) _ (part_len X y f _) _ r hr
        refine ⟨?_, ?_, ?_⟩
        · rw [targets_root _ _ _ (by simp) hy, List.nil_append, List.nil_append, targets_left, targets_right,
            targets_root l _ _ hln (by simp), targets_root r _ _ hrn (by simp), ← List.map_append, part, part]
          have h1 : (X.rows.zip y).map Prod.snd = y := List.map_snd_zip (by rw [hy]; rfl)
          conv_lhs => rw [← h1]
          apply List.Perm.map
          have h2 : (X.rows.zip y).filter (side f fun a => decide (t < a)) =
              (X.rows.zip y).filter (fun e => !side f (fun a => decide (a ≤ t)) e) := by
            apply List.filter_congr
            intro e he
            have hlen : f < e.1.length := by rw [hx _ (List.of_mem_zip he).1]; exact hf
            simp only [side, List.getElem?_eq_getElem hlen, Bool.not_eq_eq_eq_not, ← decide_not, not_le]
          rw [h2]
          exact (List.filter_append_perm _ _).symm
        · cases l with
          | null => exact absurd rfl hln
          | node v _ _ _ => exact ⟨v, rfl⟩
        · cases r with
          | null => exact absurd rfl hrn
          | node v _ _ _ => exact ⟨v, rfl⟩
      | cons c p =>
        cases c with
        | true =>
          rw [List.cons_append, List.cons_append, targets_left, targets_left, targets_left]
          exact ih _ (part_wf X hx y f _) _ (part_len X y f _) _ l hl p hp
        | false =>
          rw [List.cons_append, List.cons_append, targets_right, targets_right, targets_right]
          exact ih _ (part_wf X hx y f _) _ (part_len X y f _) _ r hr p hp

/-- What `build_tree` does at every node of the tree it returns, in terms of the samples that reach the node. -/
theorem build_nodeBy (mid : α → α → α) (A : Algo α ν R) (P : Params R) (fuel : Nat) (X : DMat α) (hx : X.WF) (y : List α)
    (hy : y.length = X.nrows) (depth : Nat) (T : Tree α ν) (h : buildBy mid A P fuel X y depth = .ok T) (p : List Bool)
    (s : Option (Nat × α)) (hs : splitAt T p = some s) :
    ∃ fuel' S, buildBy mid A P (fuel' + 1) ⟨X.ncols, rowsAt T X.rows y p⟩ (targetsAt T X.rows y p) (depth + p.length) = .ok S ∧
      splitAt S [] = some s ∧ DMat.WF ⟨X.ncols, rowsAt T X.rows y p⟩ ∧
      (targetsAt T X.rows y p).length = (rowsAt T X.rows y p).length := by
  induction fuel generalizing X y depth T p with
  | zero => cases h
  | succ fuel ih =>
    cases p with
    | nil =>
      have hne := build_ne_nullBy mid A P _ X hx y hy depth T h
      rw [targets_root T _ _ hne hy, rows_root T _ _ hne hy]
      exact ⟨fuel, T, h, hs, hx, hy⟩
    | cons c p =>
      obtain ⟨w, hw, h⟩ := build_casesBy mid A P fuel X hx y hy depth T h
      rcases h with rfl | ⟨f, t, l, r, b, rfl, hstop, hms, hd, hb, hs', hdec, hf, hl, hr⟩
      · cases c <;> simp [splitAt] at hs
      · have key : ∀ (q : α → Bool) (S : Tree α ν),
            (if P.minLeaf ≤ (part X y f q).length then
              buildBy mid A P fuel ⟨X.ncols, (part X y f q).map Prod.fst⟩ ((part X y f q).map Prod.snd) (depth + 1) = .ok S
              else S = .null) → splitAt S p = some s → ∃ fuel' S', buildBy mid A P (fuel' + 1)
              ⟨X.ncols, rowsAt S ((part X y f q).map Prod.fst) ((part X y f q).map Prod.snd) p⟩
              (targetsAt S ((part X y f q).map Prod.fst) ((part X y f q).map Prod.snd) p) (depth + 1 + p.length) = .ok S' ∧
              splitAt S' [] = some s ∧
              DMat.WF ⟨X.ncols, rowsAt S ((part X y f q).map Prod.fst) ((part X y f q).map Prod.snd) p⟩ ∧
              (targetsAt S ((part X y f q).map Prod.fst) ((part X y f q).map Prod.snd) p).length =
                (rowsAt S ((part X y f q).map Prod.fst) ((part X y f q).map Prod.snd) p).length := by
          intro q S hS hsp
          split at hS
          · exact ih ⟨X.ncols, (part X y f q).map Prod.fst⟩ (part_wf X hx y f q) _ (part_len X y f q) _ S hS p hsp
          · subst hS
            simp [splitAt] at hsp
        have hlen : depth + (c :: p).length = depth + 1 + p.length := by simp; omega
        rw [hlen]
        cases c with
        | true => rw [targets_left, rows_left]; exact key _ l hl hs
        | false => rw [targets_right, rows_right]; exact key _ r hr hs

end OpenML.DTree
