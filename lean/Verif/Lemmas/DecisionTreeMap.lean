import Verif.Lemmas.DecisionTreeFit

/-!
# Lemmas about decision trees: reordered samples and rescaled features
-/

set_option linter.unusedSectionVars false

namespace OpenML.DTree
open Spec

variable {α : Type} [Field α] [LinearOrder α] [IsStrictOrderedRing α] {R : Type} [LinearOrder R] {ν : Type}

/-- Transforms every threshold by the map of its feature. -/
def mapTree (g : Nat → α → α) : Tree α ν → Tree α ν
  | .null => .null
  | .node v s l r => .node v (s.map fun q => (q.1, g q.1 q.2)) (mapTree g l) (mapTree g r)

/-- The same for the state of the search. -/
def mapBest (g : Nat → α → α) (b : Best α R) : Best α R := ⟨b.impurity, b.split.map fun q => (q.1, g q.1 q.2)⟩

/-- Transformed samples in another order. -/
structure Moved (g : Nat → α → α) (X : DMat α) (y : List α) (X' : DMat α) (y' : List α) : Prop where
  wf : X.WF
  wf' : X'.WF
  cols : X'.ncols = X.ncols
  len : y.length = X.nrows
  len' : y'.length = X'.nrows
  perm : (X'.rows.zip y').Perm ((X.rows.zip y).map fun e => (e.1.mapIdx g, e.2))

theorem midpoints_map (g : α → α) (hmid : ∀ a b, g ((a + b) / 2) = (g a + g b) / 2) (l : List α) :
    midpoints (l.map g) = (midpoints l).map g := by
  induction l with
  | nil => rfl
  | cons a l ih =>
    cases l with
    | nil => rfl
    | cons b l =>
      simp only [List.map_cons, midpoints] at ih ⊢
      rw [ih, hmid]

theorem thresholds_nil : thresholds ([] : List α) = .ok [] := by
  simp only [thresholds, KDTree.argsortVec_zero, Res.bind_ok]
  rfl

theorem insertionSort_map (g : α → α) (hg : StrictMono g) (c c' : List α) (h : c'.Perm (c.map g)) :
    c'.insertionSort (· ≤ ·) = (c.insertionSort (· ≤ ·)).map g := by
  refine List.Perm.eq_of_pairwise (le := (· ≤ ·)) (fun a b _ _ => le_antisymm) (List.pairwise_insertionSort _ _) ?_ ?_
  · exact (List.pairwise_insertionSort (· ≤ ·) c).map g fun a b hab => hg.monotone hab
  · exact (List.perm_insertionSort _ _).trans (h.trans ((List.perm_insertionSort _ c).map g).symm)

theorem thresholds_map (g : α → α) (hg : StrictMono g) (hmid : ∀ a b, g ((a + b) / 2) = (g a + g b) / 2) (c c' : List α)
    (h : c'.Perm (c.map g)) : thresholds c' = (do let ts ← thresholds c; .ok (ts.map g)) := by
  have hl : c'.length = c.length := by rw [h.length_eq, List.length_map]
  by_cases h0 : c.length = 0
  · rw [List.length_eq_zero_iff.mp h0, List.length_eq_zero_iff.mp (hl.trans h0), thresholds_nil]
    rfl
  by_cases h12 : c.length = 1 ∨ c.length = 2
  · rw [thresholds_small c h12, thresholds_small c' (by rw [hl]; exact h12)]
    rfl
  obtain ⟨ts, e1, e2, -, e3⟩ := thresholds_ok c (by omega)
  obtain ⟨ts', e1', e2', -, e3'⟩ := thresholds_ok c' (by omega)
  rw [e1, e1', Res.bind_ok]
  congr 1
  have hp : (ts.map g).Pairwise (· < ·) := e2.map g fun a b hab => hg hab
  have hmem : ∀ t, t ∈ ts' ↔ t ∈ ts.map g := by
    intro t
    rw [e3', insertionSort_map g hg c c' h, List.mem_map]
    simp only [List.getElem?_map, Option.map_eq_some_iff, e3]
    constructor
    · rintro ⟨i, a', b', ⟨a, ha, rfl⟩, ⟨b, hb, rfl⟩, rfl⟩
      exact ⟨_, ⟨i, a, b, ha, hb, rfl⟩, hmid a b⟩
    · rintro ⟨_, ⟨i, a, b, ha, hb, rfl⟩, rfl⟩
      exact ⟨i, g a, g b, ⟨a, ha, rfl⟩, ⟨b, hb, rfl⟩, hmid a b⟩
  refine List.Perm.eq_of_pairwise (le := (· ≤ ·)) (fun a b _ _ => le_antisymm) (e2'.imp fun h => le_of_lt h)
    (hp.imp fun h => le_of_lt h) ?_
  exact (List.perm_ext_iff_of_nodup (e2'.imp fun h => ne_of_lt h) (hp.imp fun h => ne_of_lt h)).mpr hmem

namespace Moved
variable {g : Nat → α → α} {X X' : DMat α} {y y' : List α}

theorem targets (h : Moved g X y X' y') : y'.Perm y := by
  have := h.perm.map Prod.snd
  rw [List.map_map, List.map_snd_zip (by rw [h.len']; exact le_rfl)] at this
  refine this.trans ?_
  rw [show (Prod.snd ∘ fun e : List α × α => (e.1.mapIdx g, e.2)) = Prod.snd from rfl,
    List.map_snd_zip (by rw [h.len]; exact le_rfl)]

theorem rows (h : Moved g X y X' y') : X'.rows.Perm (X.rows.map fun r => r.mapIdx g) := by
  have := h.perm.map Prod.fst
  rw [List.map_map, List.map_fst_zip (by rw [h.len']; exact le_rfl)] at this
  refine this.trans ?_
  rw [show (Prod.fst ∘ fun e : List α × α => (e.1.mapIdx g, e.2)) = (fun r => r.mapIdx g) ∘ Prod.fst from rfl,
    ← List.map_map, List.map_fst_zip (by rw [h.len]; exact le_rfl)]

theorem nrows (h : Moved g X y X' y') : X'.nrows = X.nrows := by
  have := h.rows.length_eq
  simpa [DMat.nrows] using this

theorem col (h : Moved g X y X' y') (f : Nat) : (X'.col f).Perm ((X.col f).map (g f)) := by
  have := h.rows.filterMap (fun r => r[f]?)
  refine this.trans ?_
  rw [List.filterMap_map, DMat.col, List.map_filterMap]
  refine List.Perm.of_eq (List.filterMap_congr fun r _ => ?_)
  simp [List.getElem?_mapIdx]

theorem part_perm (h : Moved g X y X' y') (f : Nat) (p p' : α → Bool) (hp : ∀ a, p' (g f a) = p a) :
    (part X' y' f p').Perm ((part X y f p).map fun e => (e.1.mapIdx g, e.2)) := by
  have := h.perm.filter (side f p')
  refine this.trans ?_
  rw [List.filter_map, part]
  refine List.Perm.of_eq ?_
  congr 1
  refine List.filter_congr fun e _ => ?_
  simp only [Function.comp, side, List.getElem?_mapIdx]
  cases e.1[f]? with
  | none => rfl
  | some a => exact hp a

theorem child (h : Moved g X y X' y') (f : Nat) (p p' : α → Bool) (hp : ∀ a, p' (g f a) = p a) :
    Moved g ⟨X.ncols, (part X y f p).map Prod.fst⟩ ((part X y f p).map Prod.snd)
      ⟨X'.ncols, (part X' y' f p').map Prod.fst⟩ ((part X' y' f p').map Prod.snd) :=
  ⟨part_wf X h.wf y f p, part_wf X' h.wf' y' f p', h.cols, part_len X y f p, part_len X' y' f p',
    by rw [part_zip, part_zip]; exact h.part_perm f p p' hp⟩

variable (imp : List α → List α → List α → Res R)
  (himp : ∀ y y' l l' r r', y'.Perm y → l'.Perm l → r'.Perm r → imp y' l' r' = imp y l r)
  (hg : ∀ f, StrictMono (g f)) (hmid : ∀ f a b, g f ((a + b) / 2) = (g f a + g f b) / 2)
include himp hg

theorem le_iff (f : Nat) (t a : α) : decide (g f a ≤ g f t) = decide (a ≤ t) := by simp [(hg f).le_iff_le]
theorem lt_iff (f : Nat) (t a : α) : decide (g f t < g f a) = decide (t < a) := by simp [(hg f).lt_iff_lt]

theorem score_map (h : Moved g X y X' y') (f : Nat) (t : α) : score imp X' y' f (g f t) = score imp X y f t := by
  unfold score
  refine himp _ _ _ _ _ _ h.targets ?_ ?_
  · exact (h.child f (fun a => decide (a ≤ t)) (fun a => decide (a ≤ g f t)) fun a => by simp [(hg f).le_iff_le]).targets
  · exact (h.child f (fun a => decide (t < a)) (fun a => decide (g f t < a)) fun a => by simp [(hg f).lt_iff_lt]).targets

theorem tryThresholds_map (h : Moved g X y X' y') (f : Nat) (hf : f < X.ncols) (ts : List α) (b : Best α R) :
    tryThresholds imp X' y' f (ts.map (g f)) (mapBest g b) =
      (do let b' ← tryThresholds imp X y f ts b; .ok (mapBest g b')) := by
  induction ts generalizing b with
  | nil => rfl
  | cons t ts ih =>
    rw [List.map_cons, tryThresholds_cons imp X' h.wf' y' h.len' f (by rw [h.cols]; exact hf),
      tryThresholds_cons imp X h.wf y h.len f hf, score_map imp himp hg h]
    cases score imp X y f t with
    | ok v =>
      simp only [Res.bind_ok]
      rw [← ih]
      congr 1
      by_cases hb : b.impurity < v
      · rw [if_pos hb, if_pos (show (mapBest g b).impurity < v from hb)]; rfl
      · rw [if_neg hb, if_neg (show ¬ (mapBest g b).impurity < v from hb)]
    | throw e => rfl
    | ub => rfl
    | diverge => rfl

include hmid in
theorem tryFeatures_map (h : Moved g X y X' y') (fs : List Nat) (hfs : ∀ f ∈ fs, f < X.ncols) (b : Best α R) :
    tryFeatures imp X' y' fs (mapBest g b) = (do let b' ← tryFeatures imp X y fs b; .ok (mapBest g b')) := by
  induction fs generalizing b with
  | nil => rfl
  | cons f fs ih =>
    simp only [tryFeatures]
    rw [thresholds_map (g f) (hg f) (hmid f) _ _ (h.col f)]
    cases thresholds (X.col f) with
    | ok ts =>
      simp only [Res.bind_ok]
      rw [tryThresholds_map imp himp hg h f (hfs f (by simp))]
      cases tryThresholds imp X y f ts b with
      | ok b1 =>
        simp only [Res.bind_ok]
        exact ih (fun k hk => hfs k (by simp [hk])) b1
      | throw e => rfl
      | ub => rfl
      | diverge => rfl
    | throw e => rfl
    | ub => rfl
    | diverge => rfl

include hmid in
theorem bestSplit_map (h : Moved g X y X' y') (start : R) :
    bestSplit start imp X' y' = (do let b ← bestSplit start imp X y; .ok (mapBest g b)) := by
  rw [bestSplit, bestSplit, h.cols]
  exact tryFeatures_map imp himp hg hmid h (List.range X.ncols) (fun f hf => List.mem_range.mp hf) ⟨start, none⟩

end Moved

/-- The tree of transformed samples in another order is the transformed tree; failures are the same. -/
theorem build_map (g : Nat → α → α) (hg : ∀ f, StrictMono (g f)) (hmid : ∀ f a b, g f ((a + b) / 2) = (g f a + g f b) / 2)
    (A : Algo α ν R) (hv : ∀ y y', y'.Perm y → A.nodeValue y' = A.nodeValue y) (hs : ∀ y y', y'.Perm y → A.stop y' = A.stop y)
    (himp : ∀ y y' l l' r r', y'.Perm y → l'.Perm l → r'.Perm r → A.impurity y' l' r' = A.impurity y l r)
    (P : Params R) (fuel : Nat) (X X' : DMat α) (y y' : List α) (depth : Nat) (h : Moved g X y X' y') :
    build A P fuel X' y' depth = (do let T ← build A P fuel X y depth; .ok (mapTree g T)) := by
  induction fuel generalizing X X' y y' depth with
  | zero => rfl
  | succ fuel ih =>
    simp only [build]
    rw [hv y y' h.targets, hs y y' h.targets, h.nrows]
    cases A.nodeValue y with
    | throw e => rfl
    | ub => rfl
    | diverge => rfl
    | ok v =>
    simp only [Res.bind_ok]
    split
    · rfl
    split
    · rfl
    split
    · rfl
    rw [h.bestSplit_map A.impurity himp hg hmid A.start]
    cases hb : bestSplit A.start A.impurity X y with
    | throw e => rfl
    | ub => rfl
    | diverge => rfl
    | ok b =>
    simp only [Res.bind_ok]
    obtain ⟨i, s⟩ := b
    cases s with
    | none => rfl
    | some q =>
    obtain ⟨f, t⟩ := q
    rw [show mapBest g (⟨i, some (f, t)⟩ : Best α R) = ⟨i, some (f, g f t)⟩ from rfl]
    dsimp only
    by_cases hd : i ≤ P.minDecrease
    · rw [if_pos hd, if_pos hd]
      rfl
    rw [if_neg hd, if_neg hd]
    have hf := (bestSplit_lt A.impurity X h.wf y h.len A.start _ hb f t rfl).1
    have hf' : f < X'.ncols := by rw [h.cols]; exact hf
    simp only [gather_rows X h.wf y h.len f hf, gather_targets X h.wf y h.len f hf, gather_rows X' h.wf' y' h.len' f hf',
      gather_targets X' h.wf' y' h.len' f hf', Res.bind_ok, List.length_map]
    have hl := h.child f (fun a => decide (a ≤ t)) (fun a => decide (a ≤ g f t)) fun a => by simp [(hg f).le_iff_le]
    have hr := h.child f (fun a => decide (t < a)) (fun a => decide (g f t < a)) fun a => by simp [(hg f).lt_iff_lt]
    have el := hl.nrows
    have er := hr.nrows
    simp only [DMat.nrows, List.length_map] at el er
    rw [el, er, ih _ _ _ _ (depth + 1) hl, ih _ _ _ _ (depth + 1) hr]
    by_cases c1 : P.minLeaf ≤ (part X y f fun a => decide (a ≤ t)).length <;>
      by_cases c2 : P.minLeaf ≤ (part X y f fun a => decide (t < a)).length
    · simp only [if_pos c1, if_pos c2]
      cases build A P fuel ⟨X.ncols, (part X y f fun a => decide (a ≤ t)).map Prod.fst⟩
          ((part X y f fun a => decide (a ≤ t)).map Prod.snd) (depth + 1) with
      | ok l =>
        simp only [Res.bind_ok]
        cases build A P fuel ⟨X.ncols, (part X y f fun a => decide (t < a)).map Prod.fst⟩
          ((part X y f fun a => decide (t < a)).map Prod.snd) (depth + 1) <;> rfl
      | throw e => rfl
      | ub => rfl
      | diverge => rfl
    · simp only [if_pos c1, if_neg c2]
      cases build A P fuel ⟨X.ncols, (part X y f fun a => decide (a ≤ t)).map Prod.fst⟩
          ((part X y f fun a => decide (a ≤ t)).map Prod.snd) (depth + 1) <;> rfl
    · simp only [if_neg c1, if_pos c2]
      cases build A P fuel ⟨X.ncols, (part X y f fun a => decide (t < a)).map Prod.fst⟩
          ((part X y f fun a => decide (t < a)).map Prod.snd) (depth + 1) <;> rfl
    · simp only [if_neg c1, if_neg c2]
      rfl

theorem route_map (g : Nat → α → α) (hg : ∀ f, StrictMono (g f)) (x : List α) (T : Tree α ν) :
    route (x.mapIdx g) (mapTree g T) = route x T := by
  induction T with
  | null => rfl
  | node v s l r ihl ihr =>
    cases l with
    | null => rfl
    | node v' s' l' r' =>
      cases s with
      | none => rfl
      | some q =>
        obtain ⟨f, t⟩ := q
        simp only [mapTree, Option.map_some] at ihl ⊢
        simp only [route, readAt, List.getElem?_mapIdx]
        cases x[f]? with
        | none => rfl
        | some a =>
          simp only [Option.map_some, Res.bind_ok, (hg f).le_iff_le]
          split
          · exact ihl
          · exact ihr

theorem mapTree_id (T : Tree α ν) : mapTree (fun _ a => a) T = T := by
  induction T with
  | null => rfl
  | node v s l r ihl ihr => cases s <;> simp [mapTree, ihl, ihr]

theorem giniScore_perm (y y' l l' r r' : List α) (hy : y'.Perm y) (hl : l'.Perm l) (hr : r'.Perm r) :
    giniScore y' l' r' = giniScore y l r := by
  simp only [giniScore, Impurity.gini_unweighted, Res.bind_ok, hy.length_eq, hl.length_eq, hr.length_eq, giniImpurity,
    Impurity.toFinset_perm hl, Impurity.toFinset_perm hr, Impurity.freq_perm hl, Impurity.freq_perm hr]

theorem entropyScore_perm (y y' l l' r r' : List α) (hy : y'.Perm y) (hl : l'.Perm l) (hr : r'.Perm r) :
    entropyScore y' l' r' = entropyScore y l r := by
  simp only [entropyScore, Impurity.entropy_unweighted, Res.bind_ok, hy.length_eq, hl.length_eq, hr.length_eq, shannon,
    Impurity.toFinset_perm hy, Impurity.toFinset_perm hl, Impurity.toFinset_perm hr, Impurity.freq_perm hy,
    Impurity.freq_perm hl, Impurity.freq_perm hr]

end OpenML.DTree
