import Verif.Props.DecisionTreeMore
import Verif.Lemmas.DecisionTreeMap

/-!
# C93, C94: decision trees under reordered samples and rescaled features
-/

set_option linter.unusedSectionVars false

namespace OpenML
open DTree Spec

variable {α : Type} [Field α] [LinearOrder α] [IsStrictOrderedRing α] {R : Type} [LinearOrder R]

theorem DTree.keys_perm (x y : List α) (h : y.Perm x) : Impurity.keys y = Impurity.keys x := by
  refine List.Perm.eq_of_pairwise (le := (· ≤ ·)) (fun a b _ _ => le_antisymm) ((Impurity.keys_sorted y).imp fun h => le_of_lt h)
    ((Impurity.keys_sorted x).imp fun h => le_of_lt h) ?_
  refine (List.perm_ext_iff_of_nodup (Impurity.keys_nodup y) (Impurity.keys_nodup x)).mpr fun a => ?_
  rw [Impurity.mem_keys, Impurity.mem_keys, h.mem_iff]

theorem DTree.labels_read (y : List α) (n : Nat) (h : y.length = n) : mapRes (readAt y) (List.range n) = .ok y := by
  rw [Lists.mapRes_readAt y _ fun i hi => by rw [h]; exact List.mem_range.mp hi, ← h]
  congr 1
  exact Lists.filterMap_idx_range y

theorem DTree.fit_map (g : Nat → α → α) (hg : ∀ f, StrictMono (g f)) (hmid : ∀ f a b, g f ((a + b) / 2) = (g f a + g f b) / 2)
    (start : R) (imp : List α → List α → List α → Res R)
    (himp : ∀ y y' l l' r r', y'.Perm y → l'.Perm l → r'.Perm r → imp y' l' r' = imp y l r) (P : Params R) (old : List α)
    (X X' : DMat α) (y y' : List α) (h : Moved g X y X' y') :
    fit start imp P old X' y' = (do let M ← fit start imp P old X y; .ok ⟨M.classes, mapTree g M.root⟩) := by
  unfold fit
  rw [DTree.labels_read y' _ h.len', DTree.labels_read y _ h.len, Res.bind_ok, Res.bind_ok,
    DTree.keys_perm (old ++ y) (old ++ y') (h.targets.append_left old)]
  dsimp only
  rw [build_map g hg hmid (classifier (Impurity.keys (old ++ y)) start imp) (fun z z' hz => ?_) (fun _ _ _ => rfl) himp P _ X X' y y'
      0 h]
  · cases build (classifier (Impurity.keys (old ++ y)) start imp) P (P.maxDepth + 2) X y 0 <;> rfl
  · simp only [classifier, classCounts, hz.count_eq]

theorem DTree.meanTarget_perm (y y' : List α) (h : y'.Perm y) : meanTarget y' = meanTarget y := by
  by_cases hy : y = []
  · rw [hy] at h
    rw [h.eq_nil, hy]
  · have hy' : y' ≠ [] := fun h0 => hy (by rw [h0] at h; exact h.symm.eq_nil)
    rw [(DTree.meanTarget_eq y _).mpr ⟨hy, rfl⟩, (DTree.meanTarget_eq y' _).mpr ⟨hy', rfl⟩, h.sum_eq, h.length_eq]

theorem DTree.meanSquaredDeviation_perm (y y' : List α) (h : y'.Perm y) : meanSquaredDeviation y' = meanSquaredDeviation y := by
  simp only [meanSquaredDeviation, average, List.length_map, h.length_eq, h.sum_eq,
    (h.map fun a => (a - y.sum / (y.length : α)) ^ 2).sum_eq]

theorem DTree.squaredScore_perm (y y' l l' r r' : List α) (hy : y'.Perm y) (hl : l'.Perm l) (hr : r'.Perm r) :
    squaredScore y' l' r' = squaredScore y l r := by
  have hnil : ∀ {a b : List α}, a.Perm b → (a = [] ↔ b = []) := fun h =>
    ⟨fun h0 => by rw [h0] at h; exact h.symm.eq_nil, fun h0 => by rw [h0] at h; exact h.eq_nil⟩
  simp only [squaredScore, DTree.var_scalar, hnil hy, hnil hl, hnil hr, DTree.meanSquaredDeviation_perm _ _ hy,
    DTree.meanSquaredDeviation_perm _ _ hl, DTree.meanSquaredDeviation_perm _ _ hr, hl.length_eq, hr.length_eq]

theorem DTree.stdevStop_perm (m : α) (y y' : List α) (h : y'.Perm y) : stdevStop m y' = stdevStop m y := by
  simp only [stdevStop, h.length_eq, h.sum_eq, (h.map fun a => (a - y.sum / (y.length : α)) ^ 2).sum_eq]

theorem DTree.fitRegressor_map (g : Nat → α → α) (hg : ∀ f, StrictMono (g f))
    (hmid : ∀ f a b, g f ((a + b) / 2) = (g f a + g f b) / 2) (m start : α) (P : Params α) (X X' : DMat α) (y y' : List α)
    (h : Moved g X y X' y') :
    fitRegressor m start squaredScore P X' y' = (do let T ← fitRegressor m start squaredScore P X y; .ok (mapTree g T)) :=
  build_map g hg hmid (regressor m start squaredScore) (fun z z' => DTree.meanTarget_perm z z')
    (fun z z' => DTree.stdevStop_perm m z z') DTree.squaredScore_perm P _ X X' y y' 0 h

theorem DTree.moved_id (X X' : DMat α) (y y' : List α) (hx : X.WF) (hx' : X'.WF) (hc : X'.ncols = X.ncols)
    (hy : y.length = X.nrows) (hy' : y'.length = X'.nrows) (hp : (X'.rows.zip y').Perm (X.rows.zip y)) :
    Moved (fun _ a => a) X y X' y' :=
  ⟨hx, hx', hc, hy, hy', hp.trans (List.Perm.of_eq (by
    rw [show (fun e : List α × α => (e.1.mapIdx fun _ a => a, e.2)) = id from funext fun e =>
      Prod.ext (List.ext_getElem (by simp) (by simp)) rfl, List.map_id]))⟩

/-! ## C93 -/

/-- C93. Training a classification tree on the same samples in another order gives the same tree and the same known classes,
for both criteria and all hyper-parameters; fitting also fails on one order exactly if it fails on the other. -/
theorem C93_classifier (P : Params α) (Q : Params ℝ) (s : α) (s' : ℝ) (old : List α) (X X' : DMat α) (y y' : List α)
    (hx : X.WF) (hx' : X'.WF) (hc : X'.ncols = X.ncols) (hy : y.length = X.nrows) (hy' : y'.length = X'.nrows)
    (hp : (X'.rows.zip y').Perm (X.rows.zip y)) :
    fit s giniScore P old X' y' = fit s giniScore P old X y ∧
    fit s' entropyScore Q old X' y' = fit s' entropyScore Q old X y := by
  have hm := DTree.moved_id X X' y y' hx hx' hc hy hy' hp
  constructor
  · rw [DTree.fit_map (fun _ a => a) (fun _ => strictMono_id) (fun _ _ _ => rfl) s giniScore giniScore_perm P old X X' y y' hm]
    cases fit s giniScore P old X y <;> simp [mapTree_id]
  · rw [DTree.fit_map (fun _ a => a) (fun _ => strictMono_id) (fun _ _ _ => rfl) s' entropyScore entropyScore_perm Q old X X' y y' hm]
    cases fit s' entropyScore Q old X y <;> simp [mapTree_id]

/-- C93. The same for regression trees with `squared_error`. -/
theorem C93_regressor (m s : α) (P : Params α) (X X' : DMat α) (y y' : List α) (hx : X.WF) (hx' : X'.WF)
    (hc : X'.ncols = X.ncols) (hy : y.length = X.nrows) (hy' : y'.length = X'.nrows)
    (hp : (X'.rows.zip y').Perm (X.rows.zip y)) :
    fitRegressor m s squaredScore P X' y' = fitRegressor m s squaredScore P X y := by
  rw [DTree.fitRegressor_map (fun _ a => a) (fun _ => strictMono_id) (fun _ _ _ => rfl) m s P X X' y y'
    (DTree.moved_id X X' y y' hx hx' hc hy hy' hp)]
  cases fitRegressor m s squaredScore P X y <;> simp [mapTree_id]

/-- Four samples in two orders: the hypotheses hold, and fitting succeeds with a split. -/
example : (([[3], [1], [4], [2]] : List (List ℚ)).zip [1, 0, 1, 0]).Perm ([[1], [2], [3], [4]].zip [0, 0, 1, 1]) ∧
    fit (1 / 1000) giniScore ⟨4, 0, 5, 0⟩ [] ⟨1, [[3], [1], [4], [2]]⟩ [(1 : ℚ), 0, 1, 0] = .ok ⟨[0, 1],
      .node [2, 2] (some (0, 5 / 2)) (.node [2, 0] none .null .null) (.node [0, 2] none .null .null)⟩ := by decide +kernel

/-! ## C94 -/

theorem DTree.affine_mono (a b : Nat → α) (ha : ∀ f, 0 < a f) (f : Nat) : StrictMono fun v => a f * v + b f := by
  intro u v huv
  have := mul_lt_mul_of_pos_left huv (ha f)
  simp only
  linarith

theorem DTree.affine_mid (a b : Nat → α) (f : Nat) (u v : α) :
    a f * ((u + v) / 2) + b f = (a f * u + b f + (a f * v + b f)) / 2 := by ring

theorem DTree.moved_affine (a b : Nat → α) (X : DMat α) (y : List α) (hx : X.WF) (hy : y.length = X.nrows) :
    Moved (fun f v => a f * v + b f) X y ⟨X.ncols, X.rows.map (rescaleRow a b)⟩ y := by
  refine ⟨hx, ?_, rfl, hy, by simpa [DMat.nrows] using hy, ?_⟩
  · intro r hr
    obtain ⟨q, hq, rfl⟩ := List.mem_map.mp hr
    simp only [rescaleRow, List.length_mapIdx]
    exact hx q hq
  · rw [← List.map_id y, List.zip_map, List.map_id]
    rfl

theorem DTree.predictProb_map (g : Nat → α → α) (hg : ∀ f, StrictMono (g f)) (M : Model α) (Q : List (List α)) :
    predictProb ⟨M.classes, mapTree g M.root⟩ (Q.map fun x => x.mapIdx g) = predictProb M Q := by
  unfold predictProb
  rw [mapRes_map]
  congr 1
  funext x
  simp only [Function.comp, route_map g hg]

/-- C94. Rescaling every feature by its own positive factor and offset, in the training data and in the queries, does not
change the class probabilities and predicted classes of a classification tree (including failures), for both criteria. -/
theorem C94_classifier (a b : Nat → α) (ha : ∀ f, 0 < a f) (P : Params α) (P' : Params ℝ) (s : α) (s' : ℝ) (old : List α)
    (X : DMat α) (y : List α) (hx : X.WF) (hy : y.length = X.nrows) (Q : List (List α)) :
    (do let M ← fit s giniScore P old ⟨X.ncols, X.rows.map (rescaleRow a b)⟩ y; predictProb M (Q.map (rescaleRow a b))) =
      (do let M ← fit s giniScore P old X y; predictProb M Q) ∧
    (do let M ← fit s giniScore P old ⟨X.ncols, X.rows.map (rescaleRow a b)⟩ y; predict M (Q.map (rescaleRow a b))) =
      (do let M ← fit s giniScore P old X y; predict M Q) ∧
    (do let M ← fit s' entropyScore P' old ⟨X.ncols, X.rows.map (rescaleRow a b)⟩ y; predictProb M (Q.map (rescaleRow a b))) =
      (do let M ← fit s' entropyScore P' old X y; predictProb M Q) ∧
    (do let M ← fit s' entropyScore P' old ⟨X.ncols, X.rows.map (rescaleRow a b)⟩ y; predict M (Q.map (rescaleRow a b))) =
      (do let M ← fit s' entropyScore P' old X y; predict M Q) := by
  have hm := DTree.moved_affine a b X y hx hy
  have e1 : ∀ M : Model α, predictProb ⟨M.classes, mapTree (fun f v => a f * v + b f) M.root⟩ (Q.map (rescaleRow a b)) =
      predictProb M Q := fun M => DTree.predictProb_map _ (DTree.affine_mono a b ha) M Q
  have e2 : ∀ M : Model α, predict ⟨M.classes, mapTree (fun f v => a f * v + b f) M.root⟩ (Q.map (rescaleRow a b)) =
      predict M Q := fun M => by simp only [predict, e1]
  rw [DTree.fit_map _ (DTree.affine_mono a b ha) (DTree.affine_mid a b) s giniScore giniScore_perm P old X _ y y hm,
    DTree.fit_map _ (DTree.affine_mono a b ha) (DTree.affine_mid a b) s' entropyScore entropyScore_perm P' old X _ y y hm]
  refine ⟨?_, ?_, ?_, ?_⟩
  · cases fit s giniScore P old X y <;> simp [e1]
  · cases fit s giniScore P old X y <;> simp [e2]
  · cases fit s' entropyScore P' old X y <;> simp [e1]
  · cases fit s' entropyScore P' old X y <;> simp [e2]

/-- C94. The same for the predictions of regression trees with `squared_error`. -/
theorem C94_regressor (a b : Nat → α) (ha : ∀ f, 0 < a f) (m s : α) (P : Params α) (X : DMat α) (y : List α) (hx : X.WF)
    (hy : y.length = X.nrows) (Q : List (List α)) :
    (do let T ← fitRegressor m s squaredScore P ⟨X.ncols, X.rows.map (rescaleRow a b)⟩ y
        predictRegressor T (Q.map (rescaleRow a b))) =
      (do let T ← fitRegressor m s squaredScore P X y; predictRegressor T Q) := by
  rw [DTree.fitRegressor_map _ (DTree.affine_mono a b ha) (DTree.affine_mid a b) m s P X _ y y (DTree.moved_affine a b X y hx hy)]
  cases fitRegressor m s squaredScore P X y with
  | ok T =>
    simp only [Res.bind_ok, predictRegressor]
    rw [mapRes_map]
    congr 1
    funext x
    exact route_map _ (DTree.affine_mono a b ha) x T
  | throw e => rfl
  | ub => rfl
  | diverge => rfl

/-- Features in other units: the threshold moves along, the predictions stay. -/
example : ([[1, 5], [2, 6], [3, 7], [4, 9]].map (rescaleRow (fun f => if f = 0 then 10 else 1 / 2) fun _ => 3)) =
      [[13, 11 / 2], [23, 6], [33, 13 / 2], [43, (15 / 2 : ℚ)]] ∧
    (do let M ← fit (1 / 1000) giniScore ⟨4, 0, 5, 0⟩ [] ⟨2, [[13, 11 / 2], [23, 6], [33, 13 / 2], [43, 15 / 2]]⟩
          [(0 : ℚ), 0, 1, 1]
        predict M [[13, 8], [34, 8]]) = .ok [0, 1] ∧
    (do let M ← fit (1 / 1000) giniScore ⟨4, 0, 5, 0⟩ [] ⟨2, [[1, 5], [2, 6], [3, 7], [4, 9]]⟩ [(0 : ℚ), 0, 1, 1]
        predict M [[1, 10], [31 / 10, 10]]) = .ok [0, 1] := by decide +kernel

/-- C94. Positive factors are needed: with the sign of the only feature reversed, a query may get another class, because ties
between thresholds go to the smaller one. -/
theorem C94_negative_factor : ∃ (X : DMat ℚ) (y x : List ℚ), X.WF ∧ y.length = X.nrows ∧
    (do let M ← fit (1 / 1000) giniScore ⟨7, 0, 0, 0⟩ [] X y; predict M [x]) = .ok [0] ∧
    (do let M ← fit (1 / 1000) giniScore ⟨7, 0, 0, 0⟩ [] ⟨X.ncols, X.rows.map (rescaleRow (fun _ => -1) fun _ => 0)⟩ y
        predict M [rescaleRow (fun _ => -1) (fun _ => 0) x]) = .ok [1] :=
  ⟨⟨1, [[1], [2], [3], [4], [5], [6], [7]]⟩, [0, 0, 1, 1, 1, 0, 0], [1], by decide, rfl, by decide +kernel, by decide +kernel⟩

end OpenML
