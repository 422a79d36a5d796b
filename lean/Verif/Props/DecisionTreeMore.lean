import Verif.Props.DecisionTree
import Verif.Lemmas.KDBox

/-!
# C36-C39, C64-C69: decision trees, continued
-/

set_option linter.unusedSectionVars false

namespace OpenML
open DTree Spec

variable {α : Type} [Field α] [LinearOrder α] [IsStrictOrderedRing α] {R : Type} [LinearOrder R]

/-! ## C36 -/

/-- C36. In a fitted classification tree no node is deeper than `max_depth + 1`, split nodes are at depth at most `max_depth`,
nodes other than the root hold at least `min_samples_leaf` training samples and split nodes at least `min_samples_split`. -/
theorem C36_classifier (start : R) (imp : List α → List α → List α → Res R) (P : Params R) (old : List α) (X : DMat α)
    (hx : X.WF) (y : List α) (hy : y.length = X.nrows) (M : Model α) (h : fit start imp P old X y = .ok M) (p : List Bool) :
    (∀ v, valueAt M.root p = some v → p.length ≤ P.maxDepth + 1 ∧
      (p ≠ [] → P.minLeaf ≤ (targetsAt M.root X.rows y p).length)) ∧
    (IsSplit M.root p → p.length ≤ P.maxDepth ∧ P.minSplit ≤ (targetsAt M.root X.rows y p).length) := by
  obtain ⟨-, h2⟩ := (DTree.fit_eq_ok start imp P old X y hy M).mp h
  obtain ⟨h3, h4⟩ := build_inv _ P _ X hx y hy 0 M.root h2 p
  refine ⟨fun v hv => ?_, by simpa using h4⟩
  obtain ⟨-, h5⟩ := h3 v hv
  refine ⟨?_, fun hp => (h5 hp).2⟩
  by_cases hp : p = []
  · simp [hp]
  · have := (h5 hp).1
    omega

/-- C36. The same for regression trees. -/
theorem C36_regressor (m start : α) (imp : List α → List α → List α → Res α) (P : Params α) (X : DMat α)
    (hx : X.WF) (y : List α) (hy : y.length = X.nrows) (T : Tree α α) (h : fitRegressor m start imp P X y = .ok T)
    (p : List Bool) :
    (∀ v, valueAt T p = some v → p.length ≤ P.maxDepth + 1 ∧ (p ≠ [] → P.minLeaf ≤ (targetsAt T X.rows y p).length)) ∧
    (IsSplit T p → p.length ≤ P.maxDepth ∧ P.minSplit ≤ (targetsAt T X.rows y p).length) := by
  obtain ⟨h3, h4⟩ := build_inv _ P _ X hx y hy 0 T h p
  refine ⟨fun v hv => ?_, by simpa using h4⟩
  obtain ⟨-, h5⟩ := h3 v hv
  refine ⟨?_, fun hp => (h5 hp).2⟩
  by_cases hp : p = []
  · simp [hp]
  · have := (h5 hp).1
    omega

theorem DTree.build_split {ν : Type} (A : Algo α ν R) (P : Params R) (fuel : Nat) (X : DMat α) (hx : X.WF) (y : List α)
    (hy : y.length = X.nrows) (depth : Nat) (T : Tree α ν) (h : build A P (fuel + 1) X y depth = .ok T)
    (hstop : A.stop y = false) (hms : P.minSplit ≤ X.nrows) (hd : depth ≤ P.maxDepth) (b : Best α R)
    (hb : bestSplit A.start A.impurity X y = .ok b) (f : Nat) (t : α) (hs : b.split = some (f, t))
    (hdec : P.minDecrease < b.impurity) : splitAt T [] = some (some (f, t)) := by
  simp only [build, Res.bind_eq_ok] at h
  obtain ⟨v, hv, h⟩ := h
  rw [hstop] at h
  simp only [Bool.false_eq_true, if_false] at h
  rw [if_neg (by omega), if_neg (by omega), hb, Res.bind_ok, hs] at h
  simp only at h
  have hf := (bestSplit_lt A.impurity X hx y hy A.start b hb f t hs).1
  rw [if_neg (not_le.mpr hdec)] at h
  simp only [gather_rows X hx y hy f hf, gather_targets X hx y hy f hf, Res.bind_ok, List.length_map] at h
  by_cases h1 : P.minLeaf ≤ (part X y f fun a => decide (a ≤ t)).length <;>
    by_cases h2 : P.minLeaf ≤ (part X y f fun a => decide (t < a)).length <;>
    simp only [h1, h2, if_true, if_false, Res.bind_eq_ok] at h
  · obtain ⟨_, _, _, _, h⟩ := h
    cases h
    rfl
  · obtain ⟨_, _, h⟩ := h
    cases h
    rfl
  · obtain ⟨_, _, h⟩ := h
    cases h
    rfl
  · cases h
    rfl

/-- C36. The rule for splitting: a node of a fitted tree is split exactly if it holds at least `min_samples_split` samples, its
depth is at most `max_depth`, and the best split of its samples exists and has a criterion above `min_impurity_decrease`; it
is then split there. -/
theorem C36_split_rule (start : R) (imp : List α → List α → List α → Res R) (P : Params R) (old : List α) (X : DMat α)
    (hx : X.WF) (y : List α) (hy : y.length = X.nrows) (M : Model α) (h : fit start imp P old X y = .ok M) (p : List Bool)
    (s : Option (Nat × α)) (hs : splitAt M.root p = some s) (f : Nat) (t : α) :
    s = some (f, t) ↔ P.minSplit ≤ (targetsAt M.root X.rows y p).length ∧ p.length ≤ P.maxDepth ∧
      ∃ v, bestSplit start imp ⟨X.ncols, rowsAt M.root X.rows y p⟩ (targetsAt M.root X.rows y p) = .ok ⟨v, some (f, t)⟩ ∧
        P.minDecrease < v := by
  obtain ⟨-, h2⟩ := (DTree.fit_eq_ok start imp P old X y hy M).mp h
  obtain ⟨fuel, S, hS, hsS, hwf, hlen⟩ := build_node _ P _ X hx y hy 0 M.root h2 p s hs
  rw [Nat.zero_add] at hS
  constructor
  · rintro rfl
    obtain ⟨v, -, hc⟩ := build_cases _ P fuel _ hwf _ hlen _ S hS
    rcases hc with rfl | ⟨f', t', l, r, b, rfl, -, hms, hd, hb, hbs, hdec, -⟩
    · cases hsS
    · cases hsS
      refine ⟨by rw [hlen]; exact hms, hd, b.impurity, ?_, hdec⟩
      have hb' : bestSplit start imp ⟨X.ncols, rowsAt M.root X.rows y p⟩ (targetsAt M.root X.rows y p) = .ok b := hb
      rw [hb', ← hbs]
  · rintro ⟨hms, hd, v, hb, hdec⟩
    have := DTree.build_split _ P fuel _ hwf _ hlen _ S hS rfl (by rw [hlen] at hms; exact hms) hd _ hb f t rfl hdec
    rw [hsS] at this
    exact Option.some.inj this

/-- C36. The bound is attained: with `max_depth = 0` the root is still split. -/
theorem C36_one_more_level : ∃ (P : Params ℚ) (X : DMat ℚ) (y : List ℚ) (M : Model ℚ), P.maxDepth = 0 ∧
    fit (1 / 1000) giniScore P [] X y = .ok M ∧ IsSplit M.root [] :=
  ⟨⟨3, 0, 0, 0⟩, demo, [10, 10, 20, 20], ⟨[10, 20],
    .node [2, 2] (some (0, 5 / 2)) (.node [2, 0] none .null .null) (.node [0, 2] none .null .null)⟩, rfl,
    by decide +kernel, by simp [IsSplit]⟩

/-- Beside C36_classifier, C36_regressor and C36_split_rule: fitted trees with a split, of four samples that may be split and a depth of
at most `max_depth + 1`. -/
example : demo.WF ∧ fit (1 / 1000) giniScore ⟨3, 0, 0, 0⟩ [] demo [(10 : ℚ), 10, 20, 20] = .ok ⟨[10, 20], .node [2, 2] (some (0, 5 / 2)) (.node [2, 0] none .null .null) (.node [0, 2] none .null .null)⟩ ∧
    splitAt (Model.root ⟨[10, 20], .node [2, 2] (some (0, 5 / 2)) (.node [2, 0] none .null .null) (.node [0, 2] none .null .null)⟩ : Tree ℚ (List Nat)) [] = some (some (0, 5 / 2)) ∧
    fitRegressor (0 : ℚ) (1 / 1000) squaredScore ⟨4, 0, 5, -100⟩ ⟨1, [[1], [2], [3], [4]]⟩ [1, 1, 9, 9] =
      .ok (.node 5 (some (0, 5 / 2)) (.node 1 none .null .null) (.node 9 none .null .null)) := by
  refine ⟨by simp [DMat.WF, demo], by decide +kernel, by decide +kernel, by decide +kernel⟩

/-! ## C37 -/

/-- C37. With `min_samples_leaf = 0`, predictions on queries with as many features as the training data never fail. -/
theorem C37_total (start : R) (imp : List α → List α → List α → Res R) (P : Params R) (hm : P.minLeaf = 0) (old : List α)
    (X : DMat α) (hx : X.WF) (y : List α) (hy : y.length = X.nrows) (M : Model α) (h : fit start imp P old X y = .ok M)
    (Q : List (List α)) (hQ : ∀ x ∈ Q, x.length = X.ncols) : ∃ O, predictProb M Q = .ok O := by
  obtain ⟨-, h2⟩ := (DTree.fit_eq_ok start imp P old X y hy M).mp h
  refine KDTree.mapRes_total Q fun x hxQ => ?_
  obtain ⟨c, hc⟩ := route_total _ P hm _ X hx y hy 0 M.root h2 x (hQ x hxQ)
  exact ⟨probs c, by rw [hc, Res.bind_ok]⟩

/-- C37. With `min_samples_leaf = 1`, fitting can leave a node without right child; the query above the threshold then follows
a null pointer. -/
theorem C37_null_child : ∃ (X : DMat ℚ) (y : List ℚ) (M : Model ℚ) (x : List ℚ), X.WF ∧ y.length = X.nrows ∧
    fit (1 / 1000) giniScore ⟨3, 1, 0, 0⟩ [] X y = .ok M ∧ x.length = X.ncols ∧ predictProb M [x] = .ub :=
  ⟨⟨1, [[4], [4], [4]]⟩, [0, 1, 1], ⟨[0, 1], .node [1, 2] (some (0, 4)) (.node [1, 2] none .null .null) .null⟩, [5],
    by simp [DMat.WF], rfl, by decide +kernel, rfl, by decide +kernel⟩

/-- Beside C37_total: a tree and two queries that were not among the training data. -/
example : fit (1 / 1000) giniScore ⟨3, 0, 0, 0⟩ [] demo [(10 : ℚ), 10, 20, 20] = .ok ⟨[10, 20], .node [2, 2] (some (0, 5 / 2)) (.node [2, 0] none .null .null) (.node [0, 2] none .null .null)⟩ ∧
    predictProb (⟨[10, 20], .node [2, 2] (some (0, 5 / 2)) (.node [2, 0] none .null .null) (.node [0, 2] none .null .null)⟩ : Model ℚ) [[9, 9], [0, -5]] = .ok [[some 0, some 1], [some 1, some 0]] := by decide +kernel

/-! ## C38 -/

/-- C38. `predict` returns, for every query, the first position of the largest count in the node reached: a position in the
increasing list of classes, not a label. -/
theorem C38_position (start : R) (imp : List α → List α → List α → Res R) (P : Params R) (old : List α) (X : DMat α)
    (hx : X.WF) (y : List α) (hy : y.length = X.nrows) (M : Model α) (h : fit start imp P old X y = .ok M) (x : List α)
    (k : Nat) (hk : predict M [x] = .ok [k]) : ∃ p, Follows x M.root p ∧ StopsAt M.root p ∧ k < M.classes.length ∧
      IsFirstMax (M.classes.map fun l => (targetsAt M.root X.rows y p).count l) k := by
  simp only [predict, Res.bind_eq_ok] at hk
  obtain ⟨O, hO, rows, hrows, hk⟩ := hk
  rw [DTree.predictProb_eq_ok] at hO
  cases hO with
  | cons hc hnil =>
  cases hnil
  obtain ⟨c, hc, rfl⟩ := hc
  rw [mapRes_ok_iff] at hrows
  cases hrows with
  | @cons _ row _ _ hn hnil =>
  cases hnil
  have hk' : maxCoeffIdx row = .ok k := by
    simp only [MatOps.argmax, if_true, mapRes, Res.bind_eq_ok] at hk
    obtain ⟨j, h1, l, h2, h3⟩ := hk
    cases h2
    cases h3
    exact h1
  obtain ⟨p, hp1, hp2, hp3⟩ := route_path x M.root c hc
  obtain ⟨e1, e2, e3⟩ := C34_counts start imp P old X hx y hy M h p c hp1
  have hrow : row ≠ [] := by
    rintro rfl
    cases hk'
  obtain ⟨k', hk1, hk2⟩ := maxCoeffIdx_spec row hrow
  rw [hk'] at hk1
  cases hk1
  have hsum : c.sum ≠ 0 := by
    intro h0
    simp only [numbers, probs, h0, if_true] at hn
    cases c with
    | nil =>
      cases hn
      exact hrow rfl
    | cons a c => simp [mapRes] at hn
  have hrow' : row = c.map fun n : Nat => (n : α) / (c.sum : α) := by
    simp only [numbers, probs, hsum, if_false] at hn
    rw [mapRes_ok (g := fun o : Option α => o.getD 0)] at hn
    · rw [← Res.ok.inj hn, List.map_map]
      rfl
    · intro o ho
      obtain ⟨n, -, rfl⟩ := List.mem_map.mp ho
      rfl
  have hpos : (0 : α) < (c.sum : α) := by exact_mod_cast Nat.pos_of_ne_zero hsum
  refine ⟨p, hp2, hp3, ?_, ?_⟩
  · obtain ⟨v, hv, -⟩ := hk2
    have := (List.getElem?_eq_some_iff.mp hv).1
    rw [hrow', e3] at this
    simpa using this
  · rw [← e3]
    obtain ⟨v, hv, hmax⟩ := hk2
    rw [hrow', List.getElem?_map] at hv
    cases hck : c[k]? with
    | none => rw [hck] at hv; cases hv
    | some n =>
      rw [hck] at hv
      cases hv
      refine ⟨n, hck, fun q w hq => ?_⟩
      have := hmax q ((w : α) / (c.sum : α)) (by rw [hrow', List.getElem?_map, hq]; rfl)
      constructor
      · have h1 := this.1
        rw [div_le_div_iff_of_pos_right hpos] at h1
        exact_mod_cast h1
      · intro hwn
        exact this.2 (by rw [hwn])

/-- C38. If the known labels are `0, …, K-1`, the position is the label. -/
theorem C38_labels (M : Model α) (K : Nat) (hM : M.classes = (List.range K).map fun i : Nat => (i : α)) (k : Nat)
    (hk : k < M.classes.length) : M.classes[k]? = some (k : α) := by
  have hk' : k < K := by simpa [hM] using hk
  rw [hM, List.getElem?_map, List.getElem?_eq_getElem (by simpa using hk')]
  simp

/-- C38. With labels 10 and 20 the predictions are 0 and 1. -/
theorem C38_not_a_label : ∃ (X : DMat ℚ) (y : List ℚ) (M : Model ℚ),
    fit (1 / 1000) giniScore demoParams [] X y = .ok M ∧ predict M X.rows = .ok [0, 0, 1, 1] ∧
    y = [10, 10, 20, 20] :=
  ⟨demo, [10, 10, 20, 20], ⟨[10, 20],
    .node [2, 2] (some (0, 5 / 2)) (.node [2, 0] none .null .null) (.node [0, 2] none .null .null)⟩,
    by decide +kernel, by decide +kernel, rfl⟩

/-- Beside C38_position and C38_labels: labels that are not positions, and labels that are. -/
example : fit (1 / 1000) giniScore ⟨3, 0, 0, 0⟩ [] demo [(10 : ℚ), 10, 20, 20] = .ok ⟨[10, 20], .node [2, 2] (some (0, 5 / 2)) (.node [2, 0] none .null .null) (.node [0, 2] none .null .null)⟩ ∧
    predict (⟨[10, 20], .node [2, 2] (some (0, 5 / 2)) (.node [2, 0] none .null .null) (.node [0, 2] none .null .null)⟩ : Model ℚ) [[9, 9]] = .ok [1] ∧
    (do
      let M ← fit (1 / 1000) giniScore ⟨3, 0, 0, 0⟩ [] demo [(0 : ℚ), 0, 1, 1]
      Res.ok M.classes) = .ok ((List.range 2).map fun i : Nat => (i : ℚ)) := by decide +kernel

/-! ## C39 -/

theorem DTree.flatten_asColumn (y : List α) : MatOps.flattenMat (asColumn y) = y := by
  induction y with
  | nil => rfl
  | cons a y ih => simpa [MatOps.flattenMat, asColumn] using ih

theorem DTree.meanTarget_eq (y : List α) (v : α) :
    meanTarget y = .ok v ↔ y ≠ [] ∧ v = y.sum / (y.length : α) := by
  by_cases hy : y = []
  · subst hy
    simp [meanTarget, scalar, Stats.mean, Stats.reduce, Stats.nonEmpty, DTree.flatten_asColumn]
  · simp only [meanTarget, scalar, Stats.mean, Stats.reduce, Stats.nonEmpty, DTree.flatten_asColumn, Stats.meanLine, hy]
    simp [eq_comm, hy]

theorem DTree.sum_ge (y : List α) (lo : α) (h : ∀ a ∈ y, lo ≤ a) : (y.length : α) * lo ≤ y.sum := by
  induction y with
  | nil => simp
  | cons a y ih =>
    have h1 := ih fun b hb => h b (by simp [hb])
    have h2 := h a (by simp)
    push_cast [List.length_cons, List.sum_cons]
    linarith

theorem DTree.sum_le (y : List α) (hi : α) (h : ∀ a ∈ y, a ≤ hi) : y.sum ≤ (y.length : α) * hi := by
  induction y with
  | nil => simp
  | cons a y ih =>
    have h1 := ih fun b hb => h b (by simp [hb])
    have h2 := h a (by simp)
    push_cast [List.length_cons, List.sum_cons]
    linarith

/-- C39. A prediction of a regression tree is the mean of the targets of the training samples that followed the path of the
query, of which there is at least one; so it lies within any bounds of the training targets. This holds for every criterion
and all hyper-parameters. -/
theorem C39_mean_of_leaf (m start : α) (imp : List α → List α → List α → Res α) (P : Params α) (X : DMat α) (hx : X.WF)
    (y : List α) (hy : y.length = X.nrows) (T : Tree α α) (h : fitRegressor m start imp P X y = .ok T) (Q : List (List α))
    (O : List α) (hO : predictRegressor T Q = .ok O) : List.Forall₂ (fun x v => ∃ p, Follows x T p ∧ StopsAt T p ∧
      targetsAt T X.rows y p ≠ [] ∧ v = (targetsAt T X.rows y p).sum / ((targetsAt T X.rows y p).length : α) ∧
      ∀ lo hi : α, (∀ a ∈ y, lo ≤ a ∧ a ≤ hi) → lo ≤ v ∧ v ≤ hi) Q O := by
  unfold predictRegressor at hO
  rw [mapRes_ok_iff] at hO
  refine hO.imp fun x v hv => ?_
  obtain ⟨p, hp1, hp2, hp3⟩ := route_path x T v hv
  have h1 := ((build_inv _ P _ X hx y hy 0 T h p).1 v hp1).1
  obtain ⟨h2, h3⟩ := (DTree.meanTarget_eq _ v).mp h1
  refine ⟨p, hp2, hp3, h2, h3, fun lo hi hb => ?_⟩
  have hpos := Stats.length_pos_cast h2
  rw [h3, le_div_iff₀ hpos, div_le_iff₀ hpos]
  have hmem := fun a => DTree.mem_targetsAt T X.rows y p a
  exact ⟨by rw [mul_comm]; exact DTree.sum_ge _ lo fun a ha => (hb a (hmem a ha)).1,
    by rw [mul_comm]; exact DTree.sum_le _ hi fun a ha => (hb a (hmem a ha)).2⟩

/-- A regression tree with two leaves. -/
example : (do
    let T ← fitRegressor (0 : ℚ) (1 / 1000) squaredScore ⟨4, 0, 5, -100⟩ ⟨1, [[1], [2], [3], [4]]⟩ [1, 1, 9, 9]
    predictRegressor T [[0], [9]]) = .ok [1, 9] := by decide +kernel

/-! ## C64 -/

/-- C64. The split chosen for a node is a candidate (the average of two neighbouring values of a feature) whose criterion is
the largest among all candidates; among equally good candidates the smallest feature and then the smallest threshold wins.
No split is chosen exactly if no candidate exceeds the initial value. -/
theorem C64_best_split (start : R) (imp : List α → List α → List α → Res R) (X : DMat α) (hx : X.WF) (h3 : 3 ≤ X.nrows)
    (y : List α) (hy : y.length = X.nrows) (b : Best α R) (h : bestSplit start imp X y = .ok b) :
    (∀ f t, IsCandidate X f t → ∃ v, imp y (targetsLE X y f t) (targetsGT X y f t) = .ok v) ∧
    (b.split = none ↔ ∀ f t v, IsCandidate X f t → imp y (targetsLE X y f t) (targetsGT X y f t) = .ok v → v ≤ start) ∧
    (∀ f t, b.split = some (f, t) → IsCandidate X f t ∧
      imp y (targetsLE X y f t) (targetsGT X y f t) = .ok b.impurity ∧ start < b.impurity ∧
      ∀ f' t' v, IsCandidate X f' t' → imp y (targetsLE X y f' t') (targetsGT X y f' t') = .ok v →
        v ≤ b.impurity ∧ (v = b.impurity → f < f' ∨ f = f' ∧ t ≤ t')) := by
  obtain ⟨cs, c1, c2, s1, s2, s3⟩ := bestSplit_candidates imp X hx y hy h3 start b h
  have hle : ∀ f t v, IsCandidate X f t → imp y (targetsLE X y f t) (targetsGT X y f t) = .ok v → v ≤ b.impurity := by
    intro f t v hc hv
    obtain ⟨w, hw1, hw2⟩ := s1 (f, t) ((c1 _).mpr hc)
    rw [score_eq, hv] at hw1
    cases hw1
    exact hw2
  refine ⟨fun f t hc => ?_, ?_, ?_⟩
  · obtain ⟨w, hw1, -⟩ := s1 (f, t) ((c1 _).mpr hc)
    rw [score_eq] at hw1
    exact ⟨w, hw1⟩
  · rcases s3 with rfl | ⟨pre, c, post, e1, e2, e3, e4, e5⟩
    · exact ⟨fun _ => hle, fun _ => rfl⟩
    · constructor
      · intro h0
        rw [h0] at e2
        cases e2
      · intro h0
        exact absurd (h0 c.1 c.2 _ ((c1 c).mp (by rw [e1]; simp)) ((score_eq imp X y _ _).symm.trans e3)) (not_le.mpr e4)
  · intro f t hft
    rcases s3 with rfl | ⟨pre, c, post, e1, e2, e3, e4, e5⟩
    · cases hft
    · rw [hft] at e2
      cases e2
      refine ⟨(c1 (f, t)).mp (by rw [e1]; simp), (score_eq imp X y _ _).symm.trans e3, e4, fun f' t' v hc hv => ⟨hle f' t' v hc hv, ?_⟩⟩
      rintro rfl
      have hmem := (c1 (f', t')).mpr hc
      rw [e1] at hmem c2
      rcases List.mem_append.mp hmem with hm | hm
      · obtain ⟨w, hw1, hw2⟩ := e5 _ hm
        rw [score_eq, hv] at hw1
        cases hw1
        exact absurd hw2 (lt_irrefl _)
      · rcases List.mem_cons.mp hm with hm | hm
        · cases hm
          exact Or.inr ⟨rfl, le_rfl⟩
        · have h2 := (List.pairwise_append.mp c2).2.1
          rcases (List.pairwise_cons.mp h2).1 _ hm with h | ⟨h1, h2⟩
          · exact Or.inl h
          · exact Or.inr ⟨h1, h2.le⟩

/-- Both features separate the labels; the first one is chosen. -/
example : bestSplit (1 / 1000) giniScore ⟨2, [[1, 5], [2, 6], [3, 7], [4, 9]]⟩ [(0 : ℚ), 0, 1, 1] =
    .ok ⟨1, some (0, 5 / 2)⟩ := by decide +kernel

/-! ## C65 -/

/-- C65. With `min_samples_split` at least 3, fitting a classification tree by either criterion returns normally on every
non-empty training set. -/
theorem C65_returns (P : Params R) (h3 : 3 ≤ P.minSplit) (old : List α) (X : DMat α) (hx : X.WF)
    (y : List α) (hy : y.length = X.nrows) (hn : y ≠ []) (start : R) (imp : List α → List α → List α → Res R)
    (hi : ∀ z l r, ∃ v, imp z l r = .ok v) : ∃ M, fit start imp P old X y = .ok M := by
  have hkey : Impurity.keys (old ++ y) ≠ [] := by
    obtain ⟨z, hz⟩ := List.exists_mem_of_ne_nil _ hn
    intro h0
    have := (Impurity.mem_keys (old ++ y) z).mpr (by simp [hz])
    rw [h0] at this
    simp at this
  obtain ⟨T, hT⟩ := build_total (classifier (Impurity.keys (old ++ y)) start imp) P h3
    (fun z => by simp only [classifier, classCounts, if_neg hkey]; exact ⟨_, rfl⟩) hi (P.maxDepth + 2) _ hx y
    hy 0 (by omega) (by omega)
  exact ⟨⟨_, T⟩, (DTree.fit_eq_ok start imp P old X y hy _).mpr ⟨rfl, hT⟩⟩

/-- C65. Both criteria evaluate on every split, so `C65_returns` applies to them. -/
theorem C65_criteria (y l r : List α) : (∃ v : α, giniScore y l r = .ok v) ∧ ∃ v, entropyScore y l r = .ok v :=
  ⟨DTree.giniScore_total y l r, DTree.entropyScore_total y l r⟩

/-- Beside C65_returns and C68_entropy_keeps_pure: both criteria return on four samples of one class. -/
example : (∃ M, fit (1 / 1000) giniScore ⟨3, 0, 5, 0⟩ [] demo [(7 : ℚ), 7, 7, 7] = .ok M) ∧
    ∃ M, fit (0 : ℝ) entropyScore ⟨3, 0, 5, 0⟩ [] demo [(7 : ℚ), 7, 7, 7] = .ok M :=
  ⟨C65_returns _ (le_refl 3) [] demo (by simp [DMat.WF, demo]) _ rfl (by simp) _ _ fun z l r => (C65_criteria z l r).1,
    C65_returns _ (le_refl 3) [] demo (by simp [DMat.WF, demo]) _ rfl (by simp) _ _ fun z l r => (C65_criteria z l r).2⟩

/-- C65. A training set of one or two samples that `min_samples_split` allows to split makes fitting read out of bounds,
whatever the data, the labels and the criterion; 2 is the default. -/
theorem C65_small_node (P : Params R) (X : DMat α) (hx : X.WF) (h0 : 0 < X.ncols) (h12 : X.nrows = 1 ∨ X.nrows = 2)
    (hs : P.minSplit ≤ X.nrows) (old y : List α) (hy : y.length = X.nrows) (start : R)
    (imp : List α → List α → List α → Res R) : fit start imp P old X y = .ub := by
  have h1 : mapRes (readAt y) (List.range X.nrows) = .ok y := by
    rw [Lists.mapRes_readAt y _ fun i hi => by rw [hy]; exact List.mem_range.mp hi, ← hy]
    congr 1
    exact Lists.filterMap_idx_range y
  have hkey : Impurity.keys (old ++ y) ≠ [] := by
    have hn : y ≠ [] := by rintro rfl; simp at hy; omega
    obtain ⟨z, hz⟩ := List.exists_mem_of_ne_nil _ hn
    intro h0
    have := (Impurity.mem_keys (old ++ y) z).mpr (by simp [hz])
    rw [h0] at this
    simp at this
  have hb : bestSplit start imp X y = .ub := by
    obtain ⟨k, hk⟩ : ∃ k, X.ncols = k + 1 := ⟨X.ncols - 1, by omega⟩
    have ht : thresholds (X.col 0) = .ub := thresholds_small _ (by rw [DMat.length_col hx h0]; exact h12)
    rw [bestSplit, hk, List.range_succ_eq_map, tryFeatures, ht]
    rfl
  simp only [fit, h1, Res.bind_ok, build, classifier, classCounts, if_neg hkey, Bool.false_eq_true, if_false]
  rw [if_neg (not_lt.mpr hs), if_neg (by omega), hb]
  rfl

/-- Two samples with different labels and the default `min_samples_split = 2`. -/
example : fit (1 / 1000) giniScore ⟨2, 0, 5, 0⟩ [] ⟨1, [[1], [2]]⟩ [(0 : ℚ), 1] = .ub := by decide +kernel

/-- Five samples, `min_samples_split = 2`: a child with two samples is reached. -/
example : fit (1 / 1000) giniScore ⟨2, 0, 5, 0⟩ [] ⟨1, [[1], [2], [3], [4], [5]]⟩ [(0 : ℚ), 1, 1, 1, 1] = .ub := by
  decide +kernel

/-! ## C66 -/

theorem DTree.medianLine_okOrUb (nth : List α → Nat → List α) (l : List α) : OkOrUb (Stats.medianLine nth l) := by
  unfold Stats.medianLine readAt
  simp only
  cases (nth l (l.length / 2))[l.length / 2]? with
  | none => exact Or.inr rfl
  | some a =>
    simp only [Res.bind_ok]
    split
    · cases (nth (nth l (l.length / 2)) (l.length / 2 - 1))[l.length / 2 - 1]? with
      | none => exact Or.inr rfl
      | some b => exact Or.inl ⟨_, rfl⟩
    · exact Or.inl ⟨_, rfl⟩

theorem DTree.median_okOrUb (nth : List α → Nat → List α) (y : List α) :
    (∃ m, Stats.median nth (asColumn y) (-1) = .ok [m]) ∨ Stats.median nth (asColumn y) (-1) = .ub := by
  have h : Stats.median nth (asColumn y) (-1) = mapRes (Stats.medianLine nth) [y] := by
    simp [Stats.median, DTree.flatten_asColumn]
  rw [h]
  rcases DTree.medianLine_okOrUb nth y with ⟨m, hm⟩ | hm
  · exact Or.inl ⟨m, by simp [mapRes, hm]⟩
  · exact Or.inr (by simp [mapRes, hm])

/-- C66. The criterion `absolute_error` subtracts a one-element vector from the target vector, so it violates an assertion for
every node with more than one sample, whatever `std::nth_element` does. -/
theorem C66_absolute_error (nth : List α → Nat → List α) (y l r : List α) (hy : 2 ≤ y.length) :
    absoluteScore nth y l r = .ub := by
  unfold absoluteScore
  rcases DTree.median_okOrUb nth y with ⟨m, hm⟩ | hm <;> rw [hm]
  · rcases DTree.median_okOrUb nth l with ⟨ml, hl⟩ | hl <;> rw [Res.bind_ok, hl]
    · rcases DTree.median_okOrUb nth r with ⟨mr, hr⟩ | hr <;> rw [Res.bind_ok, hr]
      · rw [Res.bind_ok, minusMedian, if_neg (by simp; omega)]
        rfl
      · rfl
    · rfl
  · rfl

/-- C66. Hence fitting a regression tree with `absolute_error` fails on every training set whose root is considered for a
split: at least `max(3, min_samples_split)` samples whose targets are not almost constant. -/
theorem C66_fit_fails (nth : List α → Nat → List α) (m start : α) (P : Params α) (X : DMat α) (hx : X.WF) (h0 : 0 < X.ncols)
    (h3 : 3 ≤ X.nrows) (hs : P.minSplit ≤ X.nrows) (y : List α) (hy : y.length = X.nrows) (hstop : stdevStop m y = false) :
    fitRegressor m start (absoluteScore nth) P X y = .ub := by
  have hb : bestSplit start (absoluteScore nth) X y = .ub := by
    obtain ⟨k, hk⟩ : ∃ k, X.ncols = k + 1 := ⟨X.ncols - 1, by omega⟩
    obtain ⟨ts, h1, -, h2, -⟩ := thresholds_ok (X.col 0) (by rw [DMat.length_col hx h0]; exact h3)
    obtain ⟨t, ts, rfl⟩ := List.exists_cons_of_ne_nil h2
    rw [bestSplit, hk, List.range_succ_eq_map, tryFeatures, h1, Res.bind_ok, tryThresholds_cons _ X hx y hy 0 h0, score,
      C66_absolute_error nth y _ _ (by omega)]
    rfl
  obtain ⟨v, hv⟩ : ∃ v, meanTarget y = .ok v := ⟨_, (DTree.meanTarget_eq y _).mpr ⟨by rintro rfl; simp at hy; omega, rfl⟩⟩
  simp only [fitRegressor, build, regressor, hv, Res.bind_ok, hstop, Bool.false_eq_true, if_false]
  rw [if_neg (not_lt.mpr hs), if_neg (by omega), hb]
  rfl

/-- Three samples. -/
example : fitRegressor (0 : ℚ) (1 / 1000) (absoluteScore fun l _ => l.insertionSort (· ≤ ·)) ⟨2, 0, 5, 0⟩
    ⟨1, [[1], [2], [3]]⟩ [1, 2, 3] = .ub := by decide +kernel

theorem DTree.unknown_split {R : Type} [LinearOrder R] (start : R) (X : DMat α) (hx : X.WF) (h0 : 0 < X.ncols) (h3 : 3 ≤ X.nrows) (y : List α)
    (hy : y.length = X.nrows) : bestSplit start unknownScore X y = .throw .invalidArgument := by
  obtain ⟨k, hk⟩ : ∃ k, X.ncols = k + 1 := ⟨X.ncols - 1, by omega⟩
  obtain ⟨ts, h1, -, h2, -⟩ := thresholds_ok (X.col 0) (by rw [DMat.length_col hx h0]; exact h3)
  obtain ⟨t, ts, rfl⟩ := List.exists_cons_of_ne_nil h2
  rw [bestSplit, hk, List.range_succ_eq_map, tryFeatures, h1, Res.bind_ok, tryThresholds_cons _ X hx y hy 0 h0, score, unknownScore]
  rfl

/-- C66. An unknown criterion is only noticed when the first split is looked for. Then a regression tree and a classification tree throw
`invalid_argument`; with fewer samples than `min_samples_split` the fit succeeds whatever the criterion is called. -/
theorem C66_unknown_criterion {R : Type} [LinearOrder R] (m start : α) (start' : R) (P : Params α) (P' : Params R) (old : List α) (X : DMat α)
    (hx : X.WF) (h0 : 0 < X.ncols) (h3 : 3 ≤ X.nrows) (y : List α) (hy : y.length = X.nrows) :
    (P.minSplit ≤ X.nrows → stdevStop m y = false → fitRegressor m start unknownScore P X y = .throw .invalidArgument) ∧
    (P'.minSplit ≤ X.nrows → fit start' unknownScore P' old X y = .throw .invalidArgument) ∧
    (X.nrows < P.minSplit → ∃ T, fitRegressor m start unknownScore P X y = .ok T) ∧
    (X.nrows < P'.minSplit → ∃ M, fit start' unknownScore P' old X y = .ok M) := by
  have hys : mapRes (readAt y) (List.range X.nrows) = .ok y := by
    rw [mapRes_ok_iff, List.forall₂_iff_get]
    refine ⟨by simp [hy], fun i h1 h2 => ?_⟩
    simp only [List.get_eq_getElem, List.getElem_range]
    exact readAt_eq_ok.mpr (List.getElem?_eq_getElem h2)
  have hne : y ≠ [] := by rintro rfl; simp at hy; omega
  have hcl : classCounts (Impurity.keys (old ++ y)) y = .ok ((Impurity.keys (old ++ y)).map y.count) := by
    refine if_neg fun h => ?_
    obtain ⟨a, t, rfl⟩ := List.exists_cons_of_ne_nil hne
    have : a ∈ Impurity.keys (old ++ a :: t) := (Impurity.mem_keys _ _).mpr (by simp)
    rw [h] at this
    simp at this
  obtain ⟨v, hv⟩ : ∃ v, meanTarget y = .ok v := ⟨_, (DTree.meanTarget_eq y _).mpr ⟨hne, rfl⟩⟩
  refine ⟨fun hs hstop => ?_, fun hs => ?_, fun hs => ?_, fun hs => ?_⟩
  · simp only [fitRegressor, build, regressor, hv, Res.bind_ok, hstop, Bool.false_eq_true, if_false]
    rw [if_neg (not_lt.mpr hs), if_neg (by omega), DTree.unknown_split start X hx h0 h3 y hy]
    rfl
  · simp only [fit, hys, Res.bind_ok, build, classifier, hcl, Bool.false_eq_true, if_false]
    rw [if_neg (not_lt.mpr hs), if_neg (by omega), DTree.unknown_split start' X hx h0 h3 y hy]
    rfl
  · rw [fitRegressor, build]
    simp only [regressor, hv, Res.bind_ok]
    split
    · exact ⟨_, rfl⟩
    · first
      | exact ⟨_, rfl⟩
      | rw [if_pos hs]; exact ⟨_, rfl⟩
  · simp only [fit, hys, Res.bind_ok]
    rw [build]
    simp only [classifier, hcl, Res.bind_ok, Bool.false_eq_true, if_false]
    rw [if_pos hs]
    exact ⟨_, rfl⟩

/-- Three samples; with `min_samples_split` 4 the same criterion does no harm. -/
example : fitRegressor (0 : ℚ) (1 / 1000) unknownScore ⟨2, 0, 5, 0⟩ ⟨1, [[1], [2], [3]]⟩ [1, 2, 3] = .throw .invalidArgument ∧
    fitRegressor (0 : ℚ) (1 / 1000) unknownScore ⟨4, 0, 5, 0⟩ ⟨1, [[1], [2], [3]]⟩ [1, 2, 3] = .ok (.node 2 none .null .null) := by
  decide +kernel

/-! ## C67 -/

/-- C67. Fitting again keeps the labels of earlier fits as classes: the columns of `predict_prob` are all labels ever seen,
increasing, and a label that only occurred earlier has probability 0 at every node that holds a sample. -/
theorem C67_refit (start : R) (imp : List α → List α → List α → Res R) (P : Params R) (X₁ X₂ : DMat α) (hx : X₂.WF)
    (y₁ y₂ : List α) (h1 : y₁.length = X₁.nrows) (h2 : y₂.length = X₂.nrows) (M₁ M₂ : Model α)
    (hf1 : fit start imp P [] X₁ y₁ = .ok M₁) (hf2 : fit start imp P M₁.classes X₂ y₂ = .ok M₂) :
    (∀ k, k ∈ M₂.classes ↔ k ∈ y₁ ∨ k ∈ y₂) ∧ M₂.classes.Pairwise (· < ·) ∧
    ∀ x row, predictProb M₂ [x] = .ok [row] → row.length = M₂.classes.length ∧
      ∀ (j : Nat) (k v : α), M₂.classes[j]? = some k → k ∉ y₂ → row[j]? = some (some v) → v = 0 := by
  obtain ⟨e1, -⟩ := (DTree.fit_eq_ok start imp P [] X₁ y₁ h1 M₁).mp hf1
  obtain ⟨e2, -⟩ := (DTree.fit_eq_ok start imp P M₁.classes X₂ y₂ h2 M₂).mp hf2
  refine ⟨fun k => ?_, by rw [e2]; exact Impurity.keys_sorted _, fun x row hr => ?_⟩
  · rw [e2, Impurity.mem_keys, List.mem_append, e1, Impurity.mem_keys, List.nil_append]
  · obtain ⟨p, -, -, h3, h4⟩ := C35_distribution start imp P M₁.classes X₂ hx y₂ h2 M₂ hf2 x row hr
    by_cases hne : targetsAt M₂.root X₂.rows y₂ p = []
    · rw [h4 hne]
      refine ⟨by simp, ?_⟩
      intro j k v hj hk hv
      rw [List.getElem?_map, hj] at hv
      cases hv
    · obtain ⟨qs, rfl, -, -, rfl⟩ := h3 hne
      refine ⟨by simp, ?_⟩
      intro j k v hj hk hv
      rw [List.map_map, List.getElem?_map, hj] at hv
      simp only [Option.map_some, Function.comp_apply, Option.some.injEq] at hv
      rw [← hv, List.count_eq_zero.mpr fun hm => hk (DTree.mem_targetsAt _ _ _ _ _ hm)]
      simp

/-- The label 0 of the first fit stays the first class of the second fit, whose predictions are shifted. -/
example : (do
    let M₁ ← fit (1 / 1000) giniScore demoParams [] demo [(0 : ℚ), 0, 1, 1]
    let M₂ ← fit (1 / 1000) giniScore demoParams M₁.classes demo [(1 : ℚ), 1, 2, 2]
    predict M₂ demo.rows) = .ok [1, 1, 2, 2] := by decide +kernel

/-! ## C68 -/

theorem DTree.gini_pure (y l : List α) (hl : ∀ a ∈ l, ∀ b ∈ l, a = b) :
    ((l.length : α) / (y.length : α)) * giniImpurity l = 0 := by
  by_cases h : l = []
  · simp [h]
  · rw [(Impurity.gini_zero (K := α) l h).mpr hl, mul_zero]

theorem DTree.shannon_pure (l : List α) (hl : ∀ a ∈ l, ∀ b ∈ l, a = b) : shannon l = 0 := by
  by_cases h : l = []
  · simp [h, shannon]
  · exact (Impurity.shannon_zero l h).mpr hl

theorem DTree.mem_targetsLE (X : DMat α) (y : List α) (f : Nat) (t a : α) (h : a ∈ targetsLE X y f t) : a ∈ y := by
  obtain ⟨e, he, rfl⟩ := List.mem_map.mp h
  exact (List.of_mem_zip (List.mem_filter.mp he).1).2

theorem DTree.mem_targetsGT (X : DMat α) (y : List α) (f : Nat) (t a : α) (h : a ∈ targetsGT X y f t) : a ∈ y := by
  obtain ⟨e, he, rfl⟩ := List.mem_map.mp h
  exact (List.of_mem_zip (List.mem_filter.mp he).1).2

/-- C68. With the Gini criterion a training set with a single label is split all the same, if `min_impurity_decrease` is below
1 and the set is large enough: the criterion is one minus the impurity of the parts, not a decrease. -/
theorem C68_gini_splits_pure (start : α) (hs : start < 1) (P : Params α) (hdec : P.minDecrease < 1) (old : List α) (X : DMat α)
    (hx : X.WF) (h0 : 0 < X.ncols) (h3 : 3 ≤ X.nrows) (hms : P.minSplit ≤ X.nrows) (y : List α) (hy : y.length = X.nrows)
    (hp : ∀ a ∈ y, ∀ b ∈ y, a = b) (M : Model α) (h : fit start giniScore P old X y = .ok M) : IsSplit M.root [] := by
  obtain ⟨-, h2⟩ := (DTree.fit_eq_ok start giniScore P old X y hy M).mp h
  obtain ⟨b, hb⟩ := bestSplit_total giniScore X hx y hy (DTree.giniScore_total y) h3 start
  have hone : ∀ f t, giniScore y (targetsLE X y f t) (targetsGT X y f t) = .ok 1 := by
    intro f t
    simp only [giniScore, Impurity.gini_unweighted, Res.bind_ok]
    rw [DTree.gini_pure y _ fun a ha b hb => hp a (DTree.mem_targetsLE X y f t a ha) b (DTree.mem_targetsLE X y f t b hb),
      DTree.gini_pure y _ fun a ha b hb => hp a (DTree.mem_targetsGT X y f t a ha) b (DTree.mem_targetsGT X y f t b hb)]
    simp
  obtain ⟨-, c2, c3⟩ := C64_best_split start giniScore X hx h3 y hy b hb
  obtain ⟨t, ht⟩ := exists_candidate X hx y hy h3 0 h0
  cases hbs : b.split with
  | none => exact absurd (c2.mp hbs 0 t 1 ht (hone 0 t)) (not_le.mpr hs)
  | some ft =>
    obtain ⟨f, t'⟩ := ft
    obtain ⟨-, e1, -⟩ := c3 f t' hbs
    rw [hone] at e1
    have := DTree.build_split _ P _ X hx y hy 0 M.root h2 rfl hms (Nat.zero_le _) b hb f t' hbs
      (by rw [← Res.ok.inj e1]; exact hdec)
    cases hr : M.root with
    | null => rw [hr] at this; cases this
    | node v s l r => rw [hr] at this; cases this; simp [IsSplit]

/-- C68. With the entropy criterion a training set with a single label is never split. -/
theorem C68_entropy_keeps_pure (start : ℝ) (hs : 0 ≤ start) (P : Params ℝ) (old : List α) (X : DMat α) (hx : X.WF)
    (h3 : 3 ≤ P.minSplit) (y : List α) (hy : y.length = X.nrows) (hp : ∀ a ∈ y, ∀ b ∈ y, a = b) (M : Model α)
    (h : fit start entropyScore P old X y = .ok M) : ¬ IsSplit M.root [] := by
  obtain ⟨-, h2⟩ := (DTree.fit_eq_ok start entropyScore P old X y hy M).mp h
  obtain ⟨v, -, hc⟩ := build_cases _ P _ X hx y hy 0 M.root h2
  rcases hc with hc | ⟨f, t, l, r, b, -, -, hms, -, hb, hbs, -⟩
  · rw [hc]
    simp [IsSplit]
  · exfalso
    obtain ⟨-, -, c3⟩ := C64_best_split start entropyScore X hx (by omega) y hy b hb
    obtain ⟨-, e1, e2, -⟩ := c3 f t hbs
    simp only [entropyScore, Impurity.entropy_unweighted, Res.bind_ok] at e1
    rw [DTree.shannon_pure y hp,
      DTree.shannon_pure _ fun a ha b hb => hp a (DTree.mem_targetsLE X y f t a ha) b (DTree.mem_targetsLE X y f t b hb),
      DTree.shannon_pure _ fun a ha b hb => hp a (DTree.mem_targetsGT X y f t a ha) b (DTree.mem_targetsGT X y f t b hb)] at e1
    have e3 := Res.ok.inj e1
    simp only [mul_zero, sub_zero] at e3
    rw [← e3] at e2
    exact absurd e2 (not_lt.mpr hs)

/-- Four samples with the label 7. -/
example : fit (1 / 1000) giniScore ⟨4, 0, 5, 0⟩ [] demo [(7 : ℚ), 7, 7, 7] = .ok ⟨[7],
    .node [4] (some (0, 3 / 2)) (.node [1] none .null .null) (.node [3] none .null .null)⟩ := by decide +kernel

/-! ## C69 -/

theorem DTree.var_scalar (y : List α) : scalar (Stats.var (asColumn y) (-1)) =
    if y = [] then .ub else .ok (meanSquaredDeviation y) := by
  by_cases hy : y = []
  · subst hy
    simp [scalar, Stats.var, Stats.reduce, Stats.nonEmpty, DTree.flatten_asColumn]
  · simp only [scalar, Stats.var, Stats.reduce, Stats.nonEmpty, DTree.flatten_asColumn, Stats.varLine_eq hy, hy]
    simp

/-- C69. The criterion `squared_error` is the variance of the node minus the sums of squared deviations of the parts (each
part's variance times its size, not its share), and fails if a part is empty. -/
theorem C69_squared_error (y l r : List α) (hy : y ≠ []) :
    squaredScore y l r = if l = [] ∨ r = [] then .ub else .ok (meanSquaredDeviation y -
      ((l.length : α) * meanSquaredDeviation l + (r.length : α) * meanSquaredDeviation r)) := by
  simp only [squaredScore, DTree.var_scalar, hy, if_false, Res.bind_ok]
  by_cases hl : l = []
  · simp [hl]
  · by_cases hr : r = []
    · simp [hl, hr]
    · simp only [hl, hr, if_false, Res.bind_ok, or_self, sub_sub]

/-- C69. If the largest value of some feature occurs twice in a training set whose root is considered for a split, fitting a
regression tree with `squared_error` violates an assertion: the value itself is tried as threshold and leaves no sample on the
right. -/
theorem C69_repeated_maximum (m start : α) (P : Params α) (X : DMat α) (hx : X.WF) (h3 : 3 ≤ X.nrows)
    (hs : P.minSplit ≤ X.nrows) (y : List α) (hy : y.length = X.nrows) (hstop : stdevStop m y = false) (f : Nat)
    (hf : f < X.ncols) (a : α) (ha : 2 ≤ (X.col f).count a) (hmax : ∀ c ∈ X.col f, c ≤ a) :
    fitRegressor m start squaredScore P X y = .ub := by
  have hyne : y ≠ [] := by rintro rfl; simp at hy; omega
  have hcand : IsCandidate X f a := by
    refine ⟨hf, ?_⟩
    have hperm := List.perm_insertionSort (· ≤ ·) (X.col f)
    have hsort : ((X.col f).insertionSort (· ≤ ·)).Pairwise (· ≤ ·) := List.pairwise_insertionSort _ _
    rw [← hperm.count_eq] at ha
    replace hmax : ∀ c ∈ (X.col f).insertionSort (· ≤ ·), c ≤ a := fun c hc => hmax c (hperm.mem_iff.mp hc)
    generalize (X.col f).insertionSort (· ≤ ·) = s at ha hmax hsort
    clear hperm
    rcases List.eq_nil_or_concat s with rfl | ⟨s1, v, rfl⟩
    · simp at ha
    rcases List.eq_nil_or_concat s1 with rfl | ⟨s2, u, rfl⟩
    · simp only [List.concat_eq_append] at ha
      have := List.count_le_length (a := a) (l := [] ++ [v])
      simp only [List.nil_append, List.length_singleton] at this ha
      omega
    simp only [List.concat_eq_append] at ha hmax hsort ⊢
    have huv : u ≤ v := (List.pairwise_append.mp hsort).2.2 u (by simp) v (by simp)
    have hu : u = a := by
      by_contra hne
      have hlt : u < a := lt_of_le_of_ne (hmax u (by simp)) hne
      have h1 : (s2 ++ [u]).count a = 0 := by
        rw [List.count_eq_zero]
        intro hmem
        rcases List.mem_append.mp hmem with hm | hm
        · have h4 := (List.pairwise_append.mp (List.pairwise_append.mp hsort).1).2.2 a hm u (by simp)
          exact absurd h4 (not_le.mpr hlt)
        · exact hne (List.mem_singleton.mp hm).symm
      rw [List.count_append, h1] at ha
      have := List.count_le_length (a := a) (l := [v])
      simp only [List.length_singleton] at this
      omega
    have hv : v = a := le_antisymm (hmax v (by simp)) (hu ▸ huv)
    subst hu
    subst hv
    refine ⟨s2.length, v, v, by simp, by simp, by rw [← two_mul, mul_div_cancel_left₀ _ two_ne_zero]⟩
  have hempty : targetsGT X y f a = [] := by
    rw [targetsGT, List.map_eq_nil_iff, List.filter_eq_nil_iff]
    intro e he
    have hlen : f < e.1.length := by rw [hx _ (List.of_mem_zip he).1]; exact hf
    have hmem : e.1[f] ∈ X.col f :=
      List.mem_filterMap.mpr ⟨e.1, (List.of_mem_zip he).1, List.getElem?_eq_getElem hlen⟩
    simpa [List.getElem?_eq_getElem hlen] using hmax _ hmem
  have hb : bestSplit start squaredScore X y = .ub := by
    have hou : OkOrUb (bestSplit start squaredScore X y) :=
      tryFeatures_okOrUb squaredScore X hx y hy (fun l r => by
        rw [C69_squared_error y l r hyne]
        split
        · exact Or.inr rfl
        · exact Or.inl ⟨_, rfl⟩) h3 _ (fun _ h => List.mem_range.mp h) _
    rcases hou with ⟨b, hb⟩ | hb
    · obtain ⟨v, hv⟩ := (C64_best_split start squaredScore X hx h3 y hy b hb).1 f a hcand
      rw [C69_squared_error y _ _ hyne, if_pos (Or.inr hempty)] at hv
      cases hv
    · exact hb
  obtain ⟨v, hv⟩ : ∃ v, meanTarget y = .ok v := ⟨_, (DTree.meanTarget_eq y _).mpr ⟨hyne, rfl⟩⟩
  simp only [fitRegressor, build, regressor, hv, Res.bind_ok, hstop, Bool.false_eq_true, if_false]
  rw [if_neg (not_lt.mpr hs), if_neg (by omega), hb]
  rfl

/-- The largest value 3 of feature 0 occurs twice. -/
example : fitRegressor (0 : ℚ) (1 / 1000) squaredScore ⟨2, 0, 5, 0⟩ ⟨1, [[1], [3], [3]]⟩ [1, 2, 3] = .ub := by
  decide +kernel

end OpenML
