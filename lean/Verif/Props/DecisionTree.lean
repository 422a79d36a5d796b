import Verif.Lemmas.DecisionTreeFit
import Verif.Lemmas.Extreme
import Verif.Lemmas.MapRes
import Verif.Props.MatOps
import Mathlib.Tactic.Positivity
import Mathlib.Tactic.NormNum

/-!
# C34-C39, C64-C69: decision trees
-/

set_option linter.unusedSectionVars false

namespace OpenML
open DTree Spec

variable {α : Type} [Field α] [LinearOrder α] [IsStrictOrderedRing α] {R : Type} [LinearOrder R]

theorem DTree.fit_eq_ok (start : R) (imp : List α → List α → List α → Res R) (P : Params R) (old : List α) (X : DMat α)
    (y : List α) (hy : y.length = X.nrows) (M : Model α) :
    fit start imp P old X y = .ok M ↔ M.classes = Impurity.keys (old ++ y) ∧
      build (classifier (Impurity.keys (old ++ y)) start imp) P (P.maxDepth + 2) X y 0 = .ok M.root := by
  have h1 : mapRes (readAt y) (List.range X.nrows) = .ok y := by
    rw [Lists.mapRes_readAt y _ fun i hi => by rw [hy]; exact List.mem_range.mp hi, ← hy]
    congr 1
    exact Lists.filterMap_idx_range y
  simp only [fit, h1, Res.bind_ok, Res.bind_eq_ok]
  constructor
  · rintro ⟨T, h2, h3⟩
    cases h3
    exact ⟨rfl, h2⟩
  · rintro ⟨h2, h3⟩
    exact ⟨M.root, h3, by rw [← h2]⟩

/-! ## C34 -/

/-- C34. Every node of a fitted classification tree stores, for each known class in increasing order, the number of training
samples of that class that satisfy the conditions on the way to it. -/
theorem C34_counts (start : R) (imp : List α → List α → List α → Res R) (P : Params R) (old : List α) (X : DMat α)
    (hx : X.WF) (y : List α) (hy : y.length = X.nrows) (M : Model α) (h : fit start imp P old X y = .ok M) (p : List Bool)
    (c : List Nat) (hc : valueAt M.root p = some c) :
    M.classes.Pairwise (· < ·) ∧ (∀ k, k ∈ M.classes ↔ k ∈ old ∨ k ∈ y) ∧
    c = M.classes.map fun k => (targetsAt M.root X.rows y p).count k := by
  obtain ⟨h1, h2⟩ := (DTree.fit_eq_ok start imp P old X y hy M).mp h
  refine ⟨by rw [h1]; exact Impurity.keys_sorted _, fun k => by rw [h1, Impurity.mem_keys, List.mem_append], ?_⟩
  have := ((build_inv _ P _ X hx y hy 0 M.root h2 p).1 c hc).1
  simp only [classifier, classCounts] at this
  split at this
  · cases this
  · rw [h1]; exact (Res.ok.inj this).symm

/-- C34. With `min_samples_leaf = 0`, the children of every split node exist, share out its samples, and their counts add up
to those of the node. -/
theorem C34_children (start : R) (imp : List α → List α → List α → Res R) (P : Params R) (hm : P.minLeaf = 0) (old : List α)
    (X : DMat α) (hx : X.WF) (y : List α) (hy : y.length = X.nrows) (M : Model α) (h : fit start imp P old X y = .ok M)
    (p : List Bool) (hp : IsSplit M.root p) : ∃ c l r, valueAt M.root p = some c ∧ valueAt M.root (p ++ [true]) = some l ∧
      valueAt M.root (p ++ [false]) = some r ∧ c = List.zipWith (· + ·) l r ∧
      (targetsAt M.root X.rows y p).Perm
        (targetsAt M.root X.rows y (p ++ [true]) ++ targetsAt M.root X.rows y (p ++ [false])) := by
  obtain ⟨h1, h2⟩ := (DTree.fit_eq_ok start imp P old X y hy M).mp h
  obtain ⟨h3, ⟨l, hl⟩, ⟨r, hr⟩⟩ := build_children _ P hm _ X hx y hy 0 M.root h2 p hp
  have hc : ∃ c, valueAt M.root p = some c := by
    clear h h1 h2 h3 hl hr
    generalize M.root = T at hp
    induction T generalizing p with
    | null => cases p <;> simp [IsSplit] at hp
    | node v s tl tr ihl ihr =>
      match p, hp with
      | [], _ => exact ⟨v, rfl⟩
      | true :: p, hp => exact ihl p hp
      | false :: p, hp => exact ihr p hp
  obtain ⟨c, hc⟩ := hc
  refine ⟨c, l, r, hc, hl, hr, ?_, h3⟩
  obtain ⟨-, -, e1⟩ := C34_counts start imp P old X hx y hy M h _ _ hc
  obtain ⟨-, -, e2⟩ := C34_counts start imp P old X hx y hy M h _ _ hl
  obtain ⟨-, -, e3⟩ := C34_counts start imp P old X hx y hy M h _ _ hr
  rw [e1, e2, e3, List.zipWith_map, List.zipWith_self]
  apply List.map_congr_left
  intro k _
  rw [h3.count_eq, List.count_append]

/-- The sum of the counts of all known classes is the number of samples. -/
theorem DTree.sum_counts (classes y : List α) (hn : classes.Nodup) (hy : ∀ a ∈ y, a ∈ classes) :
    (classes.map y.count).sum = y.length := by
  induction y with
  | nil => simp
  | cons a y ih =>
    have h1 : (classes.map fun k => (a :: y).count k) = classes.map fun k => y.count k + (if k = a then 1 else 0) := by
      apply List.map_congr_left
      intro k _
      rw [List.count_cons]
      by_cases hk : a = k
      · simp [hk]
      · simp [hk, Ne.symm hk]
    rw [h1, List.sum_map_add, ih fun b hb => hy b (by simp [hb]), List.length_cons]
    congr 1
    have h2 : a ∈ classes := hy a (by simp)
    clear h1 ih hy
    induction classes with
    | nil => simp at h2
    | cons b cs ihc =>
      rw [List.nodup_cons] at hn
      rw [List.map_cons, List.sum_cons]
      rcases List.mem_cons.mp h2 with rfl | h2
      · have : (cs.map fun k => if k = a then 1 else 0) = cs.map fun _ => 0 := by
          apply List.map_congr_left
          intro k hk
          rw [if_neg]
          rintro rfl
          exact hn.1 hk
        rw [this]
        simp
      · rw [ihc hn.2 h2, if_neg]
        rintro rfl
        exact hn.1 h2

theorem DTree.mem_targetsAt {ν : Type} (T : Tree α ν) (X : List (List α)) (y : List α) (p : List Bool) (a : α)
    (h : a ∈ targetsAt T X y p) : a ∈ y := by
  unfold targetsAt at h
  obtain ⟨e, he, rfl⟩ := List.mem_map.mp h
  exact (List.of_mem_zip (List.mem_filter.mp he).1).2

theorem DTree.predictProb_eq_ok (M : Model α) (Q : List (List α)) (O : List (List (Option α))) :
    predictProb M Q = .ok O ↔ List.Forall₂ (fun x row => ∃ c, route x M.root = .ok c ∧ row = probs c) Q O := by
  unfold predictProb
  rw [mapRes_ok_iff]
  constructor
  · intro h
    refine h.imp ?_
    intro x row hr
    rw [Res.bind_eq_ok] at hr
    obtain ⟨c, h1, h2⟩ := hr
    exact ⟨c, h1, (Res.ok.inj h2).symm⟩
  · intro h
    refine h.imp ?_
    rintro x row ⟨c, h1, rfl⟩
    rw [h1, Res.bind_ok]

/-- C34. A training sample is predicted from a leaf it was counted in: the probability of its own label is positive. -/
theorem C34_training_sample (start : R) (imp : List α → List α → List α → Res R) (P : Params R) (hm : P.minLeaf = 0)
    (old : List α) (X : DMat α) (hx : X.WF) (y : List α) (hy : y.length = X.nrows) (M : Model α)
    (h : fit start imp P old X y = .ok M) (x : List α) (a : α) (hxa : (x, a) ∈ X.rows.zip y) :
    ∃ (row : List (Option α)) (j : Nat) (q : α), predictProb M [x] = .ok [row] ∧ M.classes[j]? = some a ∧
      row[j]? = some (some q) ∧ 0 < q := by
  obtain ⟨h1, h2⟩ := (DTree.fit_eq_ok start imp P old X y hy M).mp h
  obtain ⟨c, hc⟩ := route_total _ P hm _ X hx y hy 0 M.root h2 x (hx _ (List.of_mem_zip hxa).1)
  obtain ⟨p, hp1, hp2, -⟩ := route_path x M.root c hc
  obtain ⟨-, e2, e3⟩ := C34_counts start imp P old X hx y hy M h p c hp1
  have ha : a ∈ M.classes := (e2 a).mpr (Or.inr (List.of_mem_zip hxa).2)
  obtain ⟨j, hj, hja⟩ := List.mem_iff_getElem.mp ha
  have hat : a ∈ targetsAt M.root X.rows y p := by
    classical
    unfold targetsAt
    exact List.mem_map.mpr ⟨(x, a), List.mem_filter.mpr ⟨hxa, decide_eq_true_iff.mpr hp2⟩, rfl⟩
  have hcp : 0 < (targetsAt M.root X.rows y p).count a := List.count_pos_iff.mpr hat
  have hcj : c[j]? = some ((targetsAt M.root X.rows y p).count a) := by
    rw [e3, List.getElem?_map, List.getElem?_eq_getElem hj, hja]; rfl
  have hsum : 0 < c.sum := lt_of_lt_of_le hcp (List.le_sum_of_mem (List.mem_of_getElem? hcj))
  refine ⟨probs c, j, ((targetsAt M.root X.rows y p).count a : α) / (c.sum : α), (DTree.predictProb_eq_ok M _ _).mpr (.cons ⟨c, hc, rfl⟩ .nil), ?_, ?_, ?_⟩
  · rw [List.getElem?_eq_getElem hj, hja]
  · rw [probs, List.getElem?_map, hcj, Option.map_some, if_neg (by omega)]
  · have h3 : (0 : α) < ((targetsAt M.root X.rows y p).count a : α) := by exact_mod_cast hcp
    have h4 : (0 : α) < (c.sum : α) := by exact_mod_cast hsum
    positivity

/-- The data used in the examples: four samples with two features. -/
def DTree.demo : DMat ℚ := ⟨2, [[1, 5], [2, 5], [3, 7], [4, 9]]⟩

/-- The hyper-parameters used in the examples. -/
def DTree.demoParams : Params ℚ := ⟨3, 0, 5, 0⟩

/-- Labels 10 and 20: the root is split at 2.5 on feature 0. -/
example : fit (1 / 1000) giniScore demoParams [] demo [10, 10, 20, 20] = .ok ⟨[10, 20],
    .node [2, 2] (some (0, 5 / 2)) (.node [2, 0] none .null .null) (.node [0, 2] none .null .null)⟩ := by decide +kernel

/-! ## C35 -/

/-- C35. Every prediction comes from a node where prediction stops on the path of the query. If training samples followed that
path, the probabilities are the relative frequencies of the classes among them: not negative, with sum 1. Otherwise every
probability is 0/0. -/
theorem C35_distribution (start : R) (imp : List α → List α → List α → Res R) (P : Params R) (old : List α) (X : DMat α)
    (hx : X.WF) (y : List α) (hy : y.length = X.nrows) (M : Model α) (h : fit start imp P old X y = .ok M) (x : List α)
    (row : List (Option α)) (hr : predictProb M [x] = .ok [row]) :
    ∃ p, Follows x M.root p ∧ StopsAt M.root p ∧
      (targetsAt M.root X.rows y p ≠ [] → ∃ qs : List α, row = qs.map some ∧ (∀ q ∈ qs, 0 ≤ q) ∧ qs.sum = 1 ∧
        qs = M.classes.map fun k => ((targetsAt M.root X.rows y p).count k : α) / ((targetsAt M.root X.rows y p).length : α)) ∧
      (targetsAt M.root X.rows y p = [] → row = M.classes.map fun _ => none) := by
  rw [DTree.predictProb_eq_ok] at hr
  obtain ⟨c, hc, rfl⟩ := (List.forall₂_cons.mp hr).1
  obtain ⟨p, hp1, hp2, hp3⟩ := route_path x M.root c hc
  obtain ⟨e1, e2, e3⟩ := C34_counts start imp P old X hx y hy M h p c hp1
  have hsum : c.sum = (targetsAt M.root X.rows y p).length := by
    rw [e3]
    exact DTree.sum_counts _ _ (e1.imp fun h => h.ne) fun a ha => (e2 a).mpr (Or.inr (DTree.mem_targetsAt _ _ _ _ _ ha))
  refine ⟨p, hp2, hp3, fun hne => ?_, fun he => ?_⟩
  · have hl : 0 < (targetsAt M.root X.rows y p).length := List.length_pos_iff.mpr hne
    have hl' : (0 : α) < ((targetsAt M.root X.rows y p).length : α) := by exact_mod_cast hl
    refine ⟨_, ?_, ?_, ?_, rfl⟩
    · rw [probs, hsum, e3, List.map_map, List.map_map]
      apply List.map_congr_left
      intro k _
      simp only [Function.comp_apply]
      rw [if_neg (by omega)]
    · intro q hq
      obtain ⟨k, -, rfl⟩ := List.mem_map.mp hq
      positivity
    · have : (M.classes.map fun k => ((targetsAt M.root X.rows y p).count k : α) / ((targetsAt M.root X.rows y p).length : α)).sum
          = ((M.classes.map fun k => ((targetsAt M.root X.rows y p).count k : α)).sum) /
            ((targetsAt M.root X.rows y p).length : α) := by
        simp only [div_eq_mul_inv, List.sum_map_mul_right]
      rw [this, div_eq_one_iff_eq hl'.ne', ← hsum, e3]
      push_cast
      rw [List.map_map]
      rfl
  · have : c.sum = 0 := by rw [hsum, he]; rfl
    rw [probs, this, e3, List.map_map]
    apply List.map_congr_left
    intro k _
    simp

/-- Two queries of the example of C34. -/
example : predictProb ⟨[10, 20], .node [2, 2] (some (0, 5 / 2)) (.node [2, 0] none .null .null)
    (.node [0, 2] none .null .null)⟩ [[0, 0], [9, 9]] = .ok [[some (1 : ℚ), some 0], [some 0, some 1]] := by decide +kernel

theorem DTree.numbers_cases (row : List (Option α)) : (none ∈ row → numbers row = .ub) ∧ (none ∉ row → ∃ v, numbers row = .ok v) := by
  unfold numbers
  induction row with
  | nil => exact ⟨by simp, fun _ => ⟨_, rfl⟩⟩
  | cons o row ih =>
    cases o with
    | none => exact ⟨fun _ => by simp [mapRes], fun h => absurd (by simp) h⟩
    | some a =>
      refine ⟨fun h => ?_, fun h => ?_⟩
      · simp only [mapRes, Res.bind_ok, ih.1 (by simpa using h)]
        rfl
      · obtain ⟨v, hv⟩ := ih.2 (by simpa using h)
        exact ⟨a :: v, by simp only [mapRes, Res.bind_ok, hv]⟩

/-- C35. If one of the queries reaches an empty leaf, the classes that `predict` returns are unspecified: its position of the largest entry
is taken from a row of NaN. -/
theorem C35_predict_unspecified (start : R) (imp : List α → List α → List α → Res R) (P : Params R) (old : List α) (X : DMat α)
    (y : List α) (M : Model α) (_h : fit start imp P old X y = .ok M) (Q : List (List α)) (rows : List (List (Option α)))
    (hr : predictProb M Q = .ok rows) (row : List (Option α)) (hrow : row ∈ rows) (hnan : none ∈ row) : predict M Q = .ub := by
  have key : ∀ rows : List (List (Option α)), row ∈ rows → mapRes numbers rows = .ub := by
    intro rows
    induction rows with
    | nil => simp
    | cons r rows ih =>
      intro hm
      by_cases h : none ∈ r
      · simp only [mapRes, (DTree.numbers_cases r).1 h]
        rfl
      · obtain ⟨v, hv⟩ := (DTree.numbers_cases r).2 h
        rcases List.mem_cons.mp hm with rfl | hm
        · exact absurd hnan h
        · simp only [mapRes, hv, Res.bind_ok, ih hm]
          rfl
  unfold predict
  rw [hr, Res.bind_ok, key rows hrow]
  rfl

/-- Three samples with the same feature; the second query is above it. -/
example : (do
    let M ← fit (1 / 1000) giniScore demoParams [] ⟨1, [[4], [4], [4]]⟩ [(0 : ℚ), 1, 1]
    predict M [[4]]) = .ok [1] ∧ (do
    let M ← fit (1 / 1000) giniScore demoParams [] ⟨1, [[4], [4], [4]]⟩ [(0 : ℚ), 1, 1]
    predict M [[4], [5]]) = .ub := by decide +kernel

theorem DTree.giniScore_total (y l r : List α) : ∃ v : α, giniScore y l r = .ok v := by
  simp only [giniScore, Impurity.gini_unweighted, Res.bind_ok]
  exact ⟨_, rfl⟩

theorem DTree.entropyScore_total (y l r : List α) : ∃ v, entropyScore y l r = .ok v := by
  simp only [entropyScore, Impurity.entropy_unweighted, Res.bind_ok]
  exact ⟨_, rfl⟩

/-- With one constant feature the only candidate threshold is the constant. -/
theorem DTree.candidate_const (n : Nat) (a : α) (f : Nat) (t : α)
    (h : IsCandidate ⟨1, List.replicate n [a]⟩ f t) : f = 0 ∧ t = a := by
  obtain ⟨hf, i, u, v, h1, h2, rfl⟩ := h
  have hf0 : f = 0 := Nat.lt_one_iff.mp hf
  subst hf0
  have hcol : (⟨1, List.replicate n [a]⟩ : DMat α).col 0 = List.replicate n a := by
    simp [DMat.col, List.filterMap_replicate]
  have hmem : ∀ w, w ∈ ((⟨1, List.replicate n [a]⟩ : DMat α).col 0).insertionSort (· ≤ ·) → w = a := by
    intro w hw
    rw [(List.perm_insertionSort _ _).mem_iff, hcol] at hw
    exact List.eq_of_mem_replicate hw
  have e1 := hmem u (List.mem_of_getElem? h1)
  have e2 := hmem v (List.mem_of_getElem? h2)
  subst e1 e2
  exact ⟨rfl, by rw [← two_mul, mul_div_cancel_left₀ _ two_ne_zero]⟩

/-- C35. An empty leaf appears whenever the training data is one constant feature, with any labels: on at least
`max(3, min_samples_split)` samples a tree fitted by the Gini criterion (with the thresholds below one minus the Gini impurity
of the labels) returns 0/0 for every class for each query above the constant. -/
theorem C35_empty_leaf (start : α) (P : Params α) (hm : P.minLeaf = 0) (h3 : 3 ≤ P.minSplit) (n : Nat) (hn : P.minSplit ≤ n)
    (a b : α) (hab : a < b) (y : List α) (hy : y.length = n) (g : α) (hg : Impurity.gini y ([] : List α) = .ok g)
    (hs : start < 1 - g) (hd : P.minDecrease < 1 - g) : ∃ M : Model α,
    fit start giniScore P [] ⟨1, List.replicate n [a]⟩ y = .ok M ∧
    predictProb M [[b]] = .ok [M.classes.map fun _ => none] := by
  have hx : DMat.WF (⟨1, List.replicate n [a]⟩ : DMat α) := by
    intro r hr
    rw [List.eq_of_mem_replicate hr]
    rfl
  have hy' : y.length = DMat.nrows (⟨1, List.replicate n [a]⟩ : DMat α) := by simp [DMat.nrows, hy]
  have hyne : y ≠ [] := by rintro rfl; simp at hy; omega
  have hkey : Impurity.keys ([] ++ y) ≠ [] := by
    obtain ⟨z, hz⟩ := List.exists_mem_of_ne_nil _ hyne
    intro h0
    have := (Impurity.mem_keys ([] ++ y) z).mpr (by simpa using hz)
    rw [h0] at this
    simp at this
  obtain ⟨T, hT⟩ := build_total (classifier (Impurity.keys ([] ++ y)) start giniScore) P h3
    (fun z => by simp only [classifier, classCounts, if_neg hkey]; exact ⟨_, rfl⟩) DTree.giniScore_total (P.maxDepth + 2) _ hx y
    hy' 0 (by omega) (by omega)
  refine ⟨⟨Impurity.keys ([] ++ y), T⟩, (DTree.fit_eq_ok start giniScore P [] _ y hy' _).mpr ⟨rfl, hT⟩, ?_⟩
  rw [DTree.predictProb_eq_ok]
  refine .cons ?_ .nil
  obtain ⟨b', hb'⟩ := bestSplit_total giniScore _ hx y hy' (DTree.giniScore_total y) (by simp [DMat.nrows]; omega) start
  obtain ⟨cs, hc1, hc2, hc3, hc4, hc5⟩ := bestSplit_candidates giniScore _ hx y hy' (by simp [DMat.nrows]; omega) start b' hb'
  obtain ⟨t, ht⟩ := exists_candidate _ hx y hy' (by simp [DMat.nrows]; omega) 0 (by simp)
  have hzip : ∀ e ∈ (List.replicate n [a]).zip y, e.1 = [a] := fun e he => List.eq_of_mem_replicate (List.of_mem_zip he).1
  have hle : part (⟨1, List.replicate n [a]⟩ : DMat α) y 0 (fun c => decide (c ≤ a)) = (List.replicate n [a]).zip y := by
    rw [part, List.filter_eq_self]
    intro e he
    simp [side, hzip e he]
  have hgt : part (⟨1, List.replicate n [a]⟩ : DMat α) y 0 (fun c => decide (a < c)) = [] := by
    rw [part, List.filter_eq_nil_iff]
    intro e he
    simp [side, hzip e he]
  have hscore : score giniScore (⟨1, List.replicate n [a]⟩ : DMat α) y 0 a = .ok (1 - g) := by
    rw [score, hle, hgt, List.map_snd_zip (by simp [hy]), giniScore, hg]
    have : (y.length : α) ≠ 0 := (Stats.length_pos_cast hyne).ne'
    simp [Impurity.gini_unweighted, div_self this]
  have hta : t = a := (DTree.candidate_const n a 0 t ht).2
  subst hta
  have hb1 : 1 - g ≤ b'.impurity := by
    obtain ⟨v, hv1, hv2⟩ := hc3 (0, t) ((hc1 _).mpr ht)
    rw [hscore] at hv1
    cases hv1
    exact hv2
  rcases hc5 with rfl | ⟨pre, c, post, e1, e2, -⟩
  · exact absurd hb1 (not_le.mpr hs)
  have hcc := DTree.candidate_const n t c.1 c.2 ((hc1 c).mp (by rw [e1]; simp))
  have hcs : b'.split = some (0, t) := by rw [e2, ← hcc.1, ← hcc.2]
  obtain ⟨w, -, hw⟩ := build_cases _ P _ _ hx y hy' 0 T hT
  -- the root is split
  have hroot : ∃ l r, T = .node w (some (0, t)) l r ∧ build (classifier (Impurity.keys ([] ++ y)) start giniScore) P
      (P.maxDepth + 1) ⟨1, []⟩ [] 1 = .ok r ∧ l ≠ .null := by
    rcases hw with rfl | ⟨f, t', l, r, b2, rfl, -, -, -, hb2, hs2, -, -, hl, hr⟩
    · exfalso
      obtain ⟨v, hv⟩ : ∃ v, (classifier (Impurity.keys ([] ++ y)) start giniScore).nodeValue y = .ok v := by
        simp only [classifier, classCounts, if_neg hkey]; exact ⟨_, rfl⟩
      have h0 : (0 : α) ≠ 1 := zero_ne_one
      simp only [build, hv, Res.bind_ok] at hT
      rw [show (classifier (Impurity.keys ([] ++ y)) start giniScore).stop y = false from rfl] at hT
      rw [if_neg (by simp), if_neg (by simp [DMat.nrows]; omega), if_neg (by omega)] at hT
      rw [show bestSplit (classifier (Impurity.keys ([] ++ y)) start giniScore).start
        (classifier (Impurity.keys ([] ++ y)) start giniScore).impurity _ y = _ from hb', Res.bind_ok, hcs] at hT
      simp only at hT
      rw [if_neg (not_le.mpr (lt_of_lt_of_le hd hb1))] at hT
      simp only [gather_rows _ hx y hy' 0 (show 0 < 1 by omega), gather_targets _ hx y hy' 0 (show 0 < 1 by omega),
        Res.bind_ok, hm, Nat.zero_le, if_true, Res.bind_eq_ok] at hT
      obtain ⟨_, _, _, _, h⟩ := hT
      cases h
    · have hb2' : bestSplit start giniScore (⟨1, List.replicate n [t]⟩ : DMat α) y = .ok b2 := hb2
      rw [hb'] at hb2'
      cases hb2'
      rw [hcs] at hs2
      cases hs2
      rw [if_pos (by omega)] at hl hr
      rw [hgt] at hr
      exact ⟨l, r, rfl, hr, build_ne_null _ P _ _ (part_wf _ hx y 0 _) _ (part_len _ y 0 _) _ l hl⟩
  obtain ⟨l, r, rfl, hr, hl⟩ := hroot
  have hr' : r = .node ((Impurity.keys ([] ++ y)).map fun _ => 0) none .null .null := by
    obtain ⟨v, hv, hc⟩ := build_cases _ P _ ⟨1, []⟩ (by intro q hq; simp at hq) [] rfl 1 r hr
    rcases hc with rfl | ⟨f, t', l2, r2, b2, -, -, h0, -⟩
    · simp only [classifier, classCounts, if_neg hkey] at hv
      rw [← Res.ok.inj hv]
      simp
    · simp [DMat.nrows] at h0
      omega
  refine ⟨(Impurity.keys ([] ++ y)).map fun _ => 0, ?_, ?_⟩
  · cases l with
    | null => exact absurd rfl hl
    | node v' s' l' r' =>
      simp only [route, readAt, List.getElem?_cons_zero, Res.bind_ok, not_le.mpr hab, if_false]
      rw [hr']
      rfl
  · simp [probs]

/-- Three samples with the same feature. -/
example : (do
    let M ← fit (1 / 1000) giniScore demoParams [] ⟨1, [[4], [4], [4]]⟩ [(0 : ℚ), 1, 1]
    predictProb M [[4], [5]]) = .ok [[some (1 / 3), some (2 / 3)], [none, none]] := by decide +kernel

end OpenML
