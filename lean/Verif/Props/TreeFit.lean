import Verif.Props.DecisionTreeMore
import Verif.Spec.TreeFit

/-!
# The training error of decision trees (C118)
-/

set_option linter.unusedSectionVars false

namespace OpenML
open DTree Spec

namespace DTree

variable {α : Type} [Field α] [LinearOrder α] [IsStrictOrderedRing α] {R : Type} [LinearOrder R] {ν : Type}
variable {K : Type} [AddCommMonoid K] [PartialOrder K] [IsOrderedAddMonoid K]

/-- The cost of predicting a sample with a tree. -/
def costOf (cost : ν → α → K) (T : Tree α ν) (e : List α × α) : K :=
  match route e.1 T with
  | .ok v => cost v e.2
  | _ => 0

/-- The total cost of a node value over targets. -/
def constCost (cost : ν → α → K) (v : ν) (y : List α) : K := (y.map (cost v)).sum

/-- Every node value is the best constant for its own targets, among the node values of any targets. -/
def BestConstant (A : Algo α ν R) (cost : ν → α → K) : Prop :=
  ∀ y v y' v', A.nodeValue y = .ok v → A.nodeValue y' = .ok v' → constCost cost v y ≤ constCost cost v' y

theorem part_perm (X : DMat α) (hx : X.WF) (y : List α) (f : Nat) (hf : f < X.ncols) (t : α) :
    (X.rows.zip y).Perm ((part X y f fun a => decide (a ≤ t)) ++ part X y f fun a => decide (t < a)) := by
  unfold part
  have h : ∀ e ∈ X.rows.zip y, side f (fun a => decide (t < a)) e = !(side f (fun a => decide (a ≤ t)) e) := by
    intro e he
    have hl : f < e.1.length := by rw [hx _ (List.of_mem_zip he).1]; exact hf
    unfold side
    rw [List.getElem?_eq_getElem hl]
    simp only
    by_cases h : e.1[f] ≤ t
    · simp [h]
    · simp [h, not_le.mp h]
  rw [List.filter_congr h]
  exact (List.filter_append_perm _ _).symm

theorem sum_split (X : DMat α) (hx : X.WF) (y : List α) (f : Nat) (hf : f < X.ncols) (t : α) (g : List α × α → K) :
    ((X.rows.zip y).map g).sum = ((part X y f fun a => decide (a ≤ t)).map g).sum + ((part X y f fun a => decide (t < a)).map g).sum := by
  rw [((part_perm X hx y f hf t).map g).sum_eq, List.map_append, List.sum_append]

theorem costOf_split (cost : ν → α → K) (X : DMat α) (hx : X.WF) (y : List α) (f : Nat) (hf : f < X.ncols) (t : α) (v : ν)
    (l r : Tree α ν) (hl : l ≠ .null) :
    ((X.rows.zip y).map (costOf cost (.node v (some (f, t)) l r))).sum =
      ((part X y f fun a => decide (a ≤ t)).map (costOf cost l)).sum + ((part X y f fun a => decide (t < a)).map (costOf cost r)).sum := by
  have hr : ∀ x : List α, f < x.length → ∀ (hlt : f < x.length),
      route x (.node v (some (f, t)) l r) = if x[f] ≤ t then route x l else route x r := by
    intro x hxl hlt
    cases l with
    | null => exact absurd rfl hl
    | node w' s' l' r' => simp only [route, readAt_of_lt hxl, Res.bind_ok]
  rw [sum_split X hx y f hf t]
  congr 2
  · refine List.map_congr_left fun e he => ?_
    obtain ⟨h1, h2⟩ := List.mem_filter.mp he
    have hlt : f < e.1.length := by rw [hx _ (List.of_mem_zip h1).1]; exact hf
    unfold side at h2
    rw [List.getElem?_eq_getElem hlt] at h2
    simp only [decide_eq_true_eq] at h2
    unfold costOf
    rw [hr e.1 hlt hlt, if_pos h2]
  · refine List.map_congr_left fun e he => ?_
    obtain ⟨h1, h2⟩ := List.mem_filter.mp he
    have hlt : f < e.1.length := by rw [hx _ (List.of_mem_zip h1).1]; exact hf
    unfold side at h2
    rw [List.getElem?_eq_getElem hlt] at h2
    simp only [decide_eq_true_eq] at h2
    unfold costOf
    rw [hr e.1 hlt hlt, if_neg (not_le.mpr h2)]

theorem constCost_zip (cost : ν → α → K) (X : DMat α) (y : List α) (hy : y.length = X.nrows) (v : ν) :
    constCost cost v y = ((X.rows.zip y).map fun e => cost v e.2).sum := by
  unfold constCost
  rw [show (fun e : List α × α => cost v e.2) = cost v ∘ Prod.snd from rfl, ← List.map_map,
    List.map_snd_zip (by rw [hy]; exact le_rfl)]

/-- A fitted tree is at least as good on its training data as any constant. -/
theorem build_le_const (A : Algo α ν R) (cost : ν → α → K) (hA : BestConstant A cost) (P : Params R) (hm : P.minLeaf = 0)
    (fuel : Nat) (X : DMat α) (hx : X.WF) (y : List α) (hy : y.length = X.nrows) (depth : Nat) (T : Tree α ν)
    (h : build A P fuel X y depth = .ok T) (y' : List α) (v' : ν) (hv' : A.nodeValue y' = .ok v') :
    ((X.rows.zip y).map (costOf cost T)).sum ≤ constCost cost v' y := by
  induction fuel generalizing X y depth T with
  | zero => cases h
  | succ fuel ih =>
    obtain ⟨v, hv, h⟩ := build_cases A P fuel X hx y hy depth T h
    rcases h with rfl | ⟨f, t, l, r, b, rfl, hstop, hms, hd, hb, hs, hdec, hf, hl, hr⟩
    · refine le_trans (le_of_eq ?_) (hA y v y' v' hv hv')
      rw [constCost_zip cost X y hy]
      rfl
    · rw [if_pos (by omega)] at hl hr
      have hl' := ih _ (part_wf X hx y f _) _ (part_len X y f _) _ l hl
      have hr' := ih _ (part_wf X hx y f _) _ (part_len X y f _) _ r hr
      rw [constCost_zip cost _ _ (part_len X y f _)] at hl' hr'
      simp only [part_zip] at hl' hr'
      rw [costOf_split cost X hx y f hf t v l r (build_ne_null A P fuel _ (part_wf X hx y f _) _ (part_len X y f _) _ l hl),
        constCost_zip cost X y hy, sum_split X hx y f hf t]
      exact add_le_add hl' hr'

/-- Looser limits never raise the cost on the training data. -/
theorem build_mono (A A' : Algo α ν R) (cost : ν → α → K) (hA : BestConstant A' cost) (hval : A'.nodeValue = A.nodeValue)
    (himp : A'.impurity = A.impurity) (hstart : A'.start = A.start) (hstop' : ∀ y, A'.stop y = true → A.stop y = true)
    (P P' : Params R) (hm : P.minLeaf = 0) (hm' : P'.minLeaf = 0) (hd' : P.maxDepth ≤ P'.maxDepth)
    (hs' : P'.minSplit ≤ P.minSplit) (hi' : P'.minDecrease ≤ P.minDecrease)
    (fuel fuel' : Nat) (X : DMat α) (hx : X.WF) (y : List α) (hy : y.length = X.nrows) (depth : Nat) (T T' : Tree α ν)
    (h : build A P fuel X y depth = .ok T) (h' : build A' P' fuel' X y depth = .ok T') :
    ((X.rows.zip y).map (costOf cost T')).sum ≤ ((X.rows.zip y).map (costOf cost T)).sum := by
  induction fuel generalizing X y depth T T' fuel' with
  | zero => cases h
  | succ fuel ih =>
    obtain ⟨v, hv, h⟩ := build_cases A P fuel X hx y hy depth T h
    rcases h with rfl | ⟨f, t, l, r, b, rfl, hstop, hms, hd, hb, hs, hdec, hf, hl, hr⟩
    · refine (build_le_const A' cost hA P' hm' fuel' X hx y hy depth T' h' y v (by rw [hval]; exact hv)).trans (le_of_eq ?_)
      rw [constCost_zip cost X y hy]
      rfl
    · cases fuel' with
      | zero => cases h'
      | succ fuel' =>
        have hsp := build_split A' P' fuel' X hx y hy depth T' h' (by
            cases hA' : A'.stop y with
            | false => rfl
            | true => rw [hstop' y hA'] at hstop; cases hstop) (hs'.trans hms) (hd.trans hd') b (by rw [himp, hstart]; exact hb) f t hs
          (lt_of_le_of_lt hi' hdec)
        obtain ⟨v2, hv2, h2⟩ := build_cases A' P' fuel' X hx y hy depth T' h'
        rcases h2 with rfl | ⟨f2, t2, l2, r2, b2, rfl, -, -, -, -, -, -, -, hl2, hr2⟩
        · cases hsp
        · cases hsp
          rw [if_pos (by omega)] at hl hr hl2 hr2
          have e1 := ih fuel' _ (part_wf X hx y f _) _ (part_len X y f _) _ l l2 hl hl2
          have e2 := ih fuel' _ (part_wf X hx y f _) _ (part_len X y f _) _ r r2 hr hr2
          simp only [part_zip] at e1 e2
          rw [costOf_split cost X hx y f hf t v l r (build_ne_null A P fuel _ (part_wf X hx y f _) _ (part_len X y f _) _ l hl),
            costOf_split cost X hx y f hf t v2 l2 r2 (build_ne_null A' P' fuel' _ (part_wf X hx y f _) _ (part_len X y f _) _ l2 hl2)]
          exact add_le_add e1 e2

/-! ### Regression -/

theorem mean_best (y : List α) (hy : y ≠ []) (c : α) :
    (y.map fun a => (a - y.sum / (y.length : α)) ^ 2).sum ≤ (y.map fun a => (a - c) ^ 2).sum := by
  have hpos := Stats.length_pos_cast (α := α) hy
  set m := y.sum / (y.length : α) with hm
  have hsum : y.sum = (y.length : α) * m := by rw [hm, mul_div_cancel₀ _ hpos.ne']
  have h : ∀ (l : List α), (l.map fun a => (a - c) ^ 2).sum =
      (l.map fun a => (a - m) ^ 2).sum + 2 * (m - c) * (l.sum - l.length * m) + l.length * (m - c) ^ 2 := by
    intro l
    induction l with
    | nil => simp
    | cons a l ih =>
      simp only [List.map_cons, List.sum_cons, List.length_cons, ih]
      push_cast
      ring
  rw [h y, hsum]
  have : 0 ≤ (y.length : α) * (m - c) ^ 2 := mul_nonneg hpos.le (sq_nonneg _)
  linarith

theorem bestConstant_regressor (m start : α) (imp : List α → List α → List α → Res α) :
    BestConstant (regressor m start imp) fun (v : α) a => (a - v) ^ 2 := by
  intro y v y' v' hv _
  obtain ⟨h1, h2⟩ := (meanTarget_eq y v).mp hv
  rw [h2]
  exact mean_best y h1 v'

theorem squaredError_eq (T : Tree α α) (rows : List (List α)) (y O : List α) (h : predictRegressor T rows = .ok O) :
    totalSquaredError y O = ((rows.zip y).map (costOf (fun (v : α) a => (a - v) ^ 2) T)).sum := by
  unfold predictRegressor at h
  rw [mapRes_ok_iff] at h
  unfold totalSquaredError
  induction h generalizing y with
  | nil => simp
  | cons hv _ ih =>
    cases y with
    | nil => simp
    | cons a y =>
      rw [List.zipWith_cons_cons, List.sum_cons, ih y, List.zip_cons_cons, List.map_cons, List.sum_cons]
      congr 1
      unfold costOf
      rw [hv]

theorem stdevStop_mono (m m' : α) (h : m' ≤ m) (y : List α) (hs : stdevStop m' y = true) : stdevStop m y = true := by
  unfold stdevStop at hs ⊢
  rw [decide_eq_true_iff] at hs ⊢
  refine ⟨hs.1.trans h, hs.2.trans ?_⟩
  have h1 : (0 : α) ≤ m' * m' * (y.length : α) := by have := hs.1; positivity
  have h2 : m' * m' * (y.length : α) ≤ m * m * (y.length : α) :=
    mul_le_mul_of_nonneg_right (mul_le_mul h h hs.1 (hs.1.trans h)) (Nat.cast_nonneg _)
  exact pow_le_pow_left₀ h1 h2 2

/-! ### Classification -/

/-- One for a sample whose label is not the first most frequent class of the counts, zero otherwise. -/
def missCost (classes : List α) (c : List Nat) (a : α) : Nat :=
  match maxCoeffIdx c with
  | .ok k => if classes[k]? = some a then 0 else 1
  | _ => 1

theorem firstMax_unique {β : Type} [LinearOrder β] {l : List β} {p q : Nat} (hp : IsFirstMax l p) (hq : IsFirstMax l q) : p = q := by
  obtain ⟨v, h1, h2⟩ := hp
  obtain ⟨w, g1, g2⟩ := hq
  have hvw : v = w := le_antisymm (g2 p v h1).1 (h2 q w g1).1
  subst hvw
  exact le_antisymm ((h2 q v g1).2 rfl) ((g2 p v h1).2 rfl)

theorem constCost_miss (classes : List α) (c : List Nat) (k : Nat) (hk : maxCoeffIdx c = .ok k) (b : α) (hb : classes[k]? = some b)
    (y : List α) : constCost (missCost classes) c y + y.count b = y.length := by
  unfold constCost
  induction y with
  | nil => rfl
  | cons a y ih =>
    have h : missCost classes c a = if b = a then 0 else 1 := by
      unfold missCost
      simp only [hk, hb, Option.some.injEq]
    rw [List.map_cons, List.sum_cons, h, List.count_cons, List.length_cons, ← ih]
    by_cases hab : b = a
    · simp [hab]
      omega
    · have : ¬ a = b := fun h => hab h.symm
      simp [hab, this]
      omega

theorem classCounts_eq (classes y : List α) (c : List Nat) (h : classCounts classes y = .ok c) :
    classes ≠ [] ∧ c = classes.map y.count := by
  unfold classCounts at h
  split at h
  · cases h
  · next hne => exact ⟨hne, (Res.ok.inj h).symm⟩

theorem maxCoeff_counts (classes y : List α) (hne : classes ≠ []) : ∃ k b, maxCoeffIdx (classes.map y.count) = .ok k ∧
    classes[k]? = some b ∧ ∀ a ∈ classes, y.count a ≤ y.count b := by
  obtain ⟨k, hk, v, hv, hmax⟩ := maxCoeffIdx_spec (classes.map y.count) (by simpa using hne)
  rw [List.getElem?_map] at hv
  cases hb : classes[k]? with
  | none => rw [hb] at hv; cases hv
  | some b =>
    rw [hb] at hv
    cases hv
    refine ⟨k, b, hk, hb, fun a ha => ?_⟩
    obtain ⟨j, hj, rfl⟩ := List.mem_iff_getElem.mp ha
    exact (hmax j (y.count classes[j]) (by rw [List.getElem?_map, List.getElem?_eq_getElem hj]; rfl)).1

theorem bestConstant_classifier (classes : List α) (start : R) (imp : List α → List α → List α → Res R) :
    BestConstant (classifier classes start imp) (missCost classes) := by
  intro y v y' v' hv hv'
  obtain ⟨hne, rfl⟩ := classCounts_eq classes y v hv
  obtain ⟨-, rfl⟩ := classCounts_eq classes y' v' hv'
  obtain ⟨k, b, h1, h2, h3⟩ := maxCoeff_counts classes y hne
  obtain ⟨k', b', g1, g2, -⟩ := maxCoeff_counts classes y' hne
  have e1 := constCost_miss classes _ k h1 b h2 y
  have e2 := constCost_miss classes _ k' g1 b' g2 y
  have e3 := h3 b' (List.mem_of_getElem? g2)
  omega

/-- The positions predicted for rows that reach non-empty counts. -/
theorem predict_eq (M : Model α) (rows : List (List α)) (O : List Nat) (h : predict M rows = .ok O) :
    List.Forall₂ (fun x k => ∃ c, route x M.root = .ok c ∧ maxCoeffIdx c = .ok k) rows O := by
  simp only [predict, Res.bind_eq_ok] at h
  obtain ⟨pr, hpr, nums, hn, hk⟩ := h
  rw [predictProb_eq_ok] at hpr
  rw [mapRes_ok_iff] at hn
  have hk' : List.Forall₂ (fun row k => maxCoeffIdx row = .ok k) nums O := by
    simp only [MatOps.argmax, if_true] at hk
    rw [mapRes_ok_iff] at hk
    exact hk
  clear hk
  induction hpr generalizing nums O with
  | nil => cases hn; cases hk'; exact .nil
  | cons hc _ ih =>
    cases hn with
    | @cons _ row _ _ hn1 hn2 =>
    cases hk' with
    | @cons _ k _ _ hk1 hk2 =>
    refine .cons ?_ (ih _ _ hn2 hk2)
    obtain ⟨c, hc, rfl⟩ := hc
    refine ⟨c, hc, ?_⟩
    have hrow : row ≠ [] := by rintro rfl; cases hk1
    have hsum : c.sum ≠ 0 := by
      intro h0
      simp only [numbers, probs, h0, if_true] at hn1
      cases c with
      | nil => cases hn1; exact hrow rfl
      | cons a c => simp [mapRes] at hn1
    have hrow' : row = c.map fun n : Nat => (n : α) / (c.sum : α) := by
      simp only [numbers, probs, hsum, if_false] at hn1
      rw [mapRes_ok (g := fun o : Option α => o.getD 0)] at hn1
      · rw [← Res.ok.inj hn1, List.map_map]
        rfl
      · intro o ho
        obtain ⟨n, -, rfl⟩ := List.mem_map.mp ho
        rfl
    have hpos : (0 : α) < (c.sum : α) := by exact_mod_cast Nat.pos_of_ne_zero hsum
    obtain ⟨k1, e1, e2⟩ := maxCoeffIdx_spec row hrow
    rw [hk1] at e1
    cases e1
    have hcne : c ≠ [] := by rintro rfl; exact hsum rfl
    obtain ⟨k2, e3, e4⟩ := maxCoeffIdx_spec c hcne
    have : k = k2 := by
      refine firstMax_unique e2 ?_
      obtain ⟨n, hn', hmax⟩ := e4
      refine ⟨(n : α) / (c.sum : α), by rw [hrow', List.getElem?_map, hn']; rfl, fun q w hq => ?_⟩
      rw [hrow', List.getElem?_map] at hq
      cases hcq : c[q]? with
      | none => rw [hcq] at hq; cases hq
      | some n' =>
        rw [hcq] at hq
        cases hq
        have := hmax q n' hcq
        constructor
        · rw [div_le_div_iff_of_pos_right hpos]
          exact_mod_cast this.1
        · intro hw
          refine this.2 ?_
          have := (div_left_inj' hpos.ne').mp hw
          exact_mod_cast this
    rw [this]
    exact e3

theorem numCorrect_eq (M : Model α) (rows : List (List α)) (y : List α) (hy : y.length = rows.length) (O : List Nat)
    (h : predict M rows = .ok O) :
    ((rows.zip y).map (costOf (missCost M.classes) M.root)).sum + numCorrect M.classes y O = y.length := by
  replace h := predict_eq M rows O h
  unfold numCorrect
  induction h generalizing y with
  | nil =>
    have : y = [] := List.length_eq_zero_iff.mp (by simpa using hy)
    subst this
    rfl
  | @cons x k rows O hc _ ih =>
    match y, hy with
    | a :: y, hy =>
      obtain ⟨c, h1, h2⟩ := hc
      have hi := ih y (by simpa using hy)
      have hcost : costOf (missCost M.classes) M.root (x, a) = if M.classes[k]? = some a then 0 else 1 := by
        unfold costOf missCost
        simp only [h1, h2]
      rw [List.zip_cons_cons, List.map_cons, List.sum_cons, hcost, List.zip_cons_cons, List.filter_cons]
      by_cases hk : M.classes[k]? = some a
      · simp only [hk, decide_true, if_true, List.length_cons]
        omega
      · simp only [hk, decide_false, if_false, Bool.false_eq_true, List.length_cons]
        omega

end DTree

section

variable {α : Type} [Field α] [LinearOrder α] [IsStrictOrderedRing α] {R : Type} [LinearOrder R]

/-- **C118.** Raising `max_depth` or lowering `min_samples_split`, `min_impurity_decrease` or `min_stdev` never raises the
squared error of a regression tree on its training data. -/
theorem C118_regressor (imp : List α → List α → List α → Res α) (m m' start : α) (hm : m' ≤ m) (P P' : Params α)
    (hl : P.minLeaf = 0) (hl' : P'.minLeaf = 0) (hd : P.maxDepth ≤ P'.maxDepth) (hs : P'.minSplit ≤ P.minSplit)
    (hi : P'.minDecrease ≤ P.minDecrease) (X : DMat α) (hx : X.WF) (y : List α) (hy : y.length = X.nrows) (T T' : Tree α α)
    (h : fitRegressor m start imp P X y = .ok T) (h' : fitRegressor m' start imp P' X y = .ok T') (O O' : List α)
    (hO : predictRegressor T X.rows = .ok O) (hO' : predictRegressor T' X.rows = .ok O') :
    totalSquaredError y O' ≤ totalSquaredError y O := by
  rw [squaredError_eq T X.rows y O hO, squaredError_eq T' X.rows y O' hO']
  exact build_mono (regressor m start imp) (regressor m' start imp) _ (bestConstant_regressor m' start imp) rfl rfl rfl
    (fun y hst => stdevStop_mono m m' hm y hst) P P' hl hl' hd hs hi _ _ X hx y hy 0 T T' h h'

/-- **C118.** On its training data a regression tree is at least as good as any constant prediction. -/
theorem C118_regressor_constant (imp : List α → List α → List α → Res α) (m start : α) (P : Params α) (hl : P.minLeaf = 0)
    (X : DMat α) (hx : X.WF) (y : List α) (hy : y.length = X.nrows) (T : Tree α α)
    (h : fitRegressor m start imp P X y = .ok T) (O : List α) (hO : predictRegressor T X.rows = .ok O) (c : α) :
    totalSquaredError y O ≤ totalSquaredError y (y.map fun _ => c) := by
  rw [squaredError_eq T X.rows y O hO]
  refine (build_le_const _ _ (bestConstant_regressor m start imp) P hl _ X hx y hy 0 T h [c] c ?_).trans (le_of_eq ?_)
  · exact (meanTarget_eq [c] c).mpr ⟨by simp, by simp⟩
  · unfold constCost totalSquaredError
    rw [List.zipWith_map_right, List.zipWith_self]

/-- **C118.** Raising `max_depth` or lowering `min_samples_split` or `min_impurity_decrease` never lowers the number of
training samples a classification tree predicts correctly. -/
theorem C118_classifier (start : R) (imp : List α → List α → List α → Res R) (P P' : Params R)
    (hl : P.minLeaf = 0) (hl' : P'.minLeaf = 0) (hd : P.maxDepth ≤ P'.maxDepth) (hs : P'.minSplit ≤ P.minSplit)
    (hi : P'.minDecrease ≤ P.minDecrease) (old : List α) (X : DMat α) (hx : X.WF) (y : List α) (hy : y.length = X.nrows)
    (M M' : Model α) (h : fit start imp P old X y = .ok M) (h' : fit start imp P' old X y = .ok M') (O O' : List Nat)
    (hO : predict M X.rows = .ok O) (hO' : predict M' X.rows = .ok O') :
    numCorrect M.classes y O ≤ numCorrect M'.classes y O' := by
  obtain ⟨h1, h2⟩ := (DTree.fit_eq_ok start imp P old X y hy M).mp h
  obtain ⟨g1, g2⟩ := (DTree.fit_eq_ok start imp P' old X y hy M').mp h'
  have e1 := numCorrect_eq M X.rows y hy O hO
  have e2 := numCorrect_eq M' X.rows y hy O' hO'
  have e3 := build_mono _ _ _ (bestConstant_classifier (Impurity.keys (old ++ y)) start imp) rfl rfl rfl (fun _ h => h)
    P P' hl hl' hd hs hi _ _ X hx y hy 0 _ _ h2 g2
  rw [h1] at e1
  rw [g1] at e2
  rw [h1, g1]
  omega

/-- **C118.** A classification tree predicts at least as many training samples correctly as there are samples of any one
class. -/
theorem C118_classifier_majority (start : R) (imp : List α → List α → List α → Res R) (P : Params R) (hl : P.minLeaf = 0)
    (old : List α) (X : DMat α) (hx : X.WF) (y : List α) (hy : y.length = X.nrows) (M : Model α)
    (h : fit start imp P old X y = .ok M) (O : List Nat) (hO : predict M X.rows = .ok O) (a : α) :
    y.count a ≤ numCorrect M.classes y O := by
  obtain ⟨h1, h2⟩ := (DTree.fit_eq_ok start imp P old X y hy M).mp h
  by_cases ha : a ∈ y
  swap
  · rw [List.count_eq_zero_of_not_mem ha]; exact Nat.zero_le _
  have hac : a ∈ M.classes := by rw [h1, Impurity.mem_keys]; simp [ha]
  have hne : M.classes ≠ [] := by intro h0; rw [h0] at hac; cases hac
  have hroot : classCounts M.classes y = .ok (M.classes.map y.count) := by rw [classCounts, if_neg hne]
  have e1 := numCorrect_eq M X.rows y hy O hO
  obtain ⟨k, b, g1, g2, g3⟩ := maxCoeff_counts M.classes y hne
  have e2 := constCost_miss M.classes _ k g1 b g2 y
  have e3 := build_le_const _ _ (bestConstant_classifier (Impurity.keys (old ++ y)) start imp) P hl _ X hx y hy 0 _ h2 y
    (M.classes.map y.count) (by rw [h1] at hroot ⊢; exact hroot)
  rw [← h1] at e3
  have e4 := g3 a hac
  omega

end

/-- Trees with `max_depth` 0 and 1 on the same data: 5 and then all 6 samples are predicted correctly. -/
example : (do
    let M ← fit (1 / 1000) giniScore ⟨3, 0, 0, 0⟩ [] (⟨1, [[1], [2], [3], [4], [5], [6]]⟩ : DMat ℚ) [7, 7, 8, 8, 8, 7]
    let O ← predict M [[1], [2], [3], [4], [5], [6]]
    .ok (O, numCorrect M.classes [7, 7, 8, 8, 8, 7] O)) = Res.ok ([0, 0, 1, 1, 1, 1], 5) := by decide +kernel

example : (do
    let M ← fit (1 / 1000) giniScore ⟨3, 0, 1, 0⟩ [] (⟨1, [[1], [2], [3], [4], [5], [6]]⟩ : DMat ℚ) [7, 7, 8, 8, 8, 7]
    let O ← predict M [[1], [2], [3], [4], [5], [6]]
    .ok (O, numCorrect M.classes [7, 7, 8, 8, 8, 7] O)) = Res.ok ([0, 0, 1, 1, 1, 0], 6) := by decide +kernel

/-- Regression trees with `min_samples_split` 7 and 4. -/
example : (do
    let T ← fitRegressor (0 : ℚ) (1 / 1000) squaredScore ⟨7, 0, 5, -100⟩ ⟨1, [[1], [2], [3], [4]]⟩ [1, 1, 9, 9]
    let O ← predictRegressor T [[1], [2], [3], [4]]
    let T' ← fitRegressor (0 : ℚ) (1 / 1000) squaredScore ⟨4, 0, 5, -100⟩ ⟨1, [[1], [2], [3], [4]]⟩ [1, 1, 9, 9]
    let O' ← predictRegressor T' [[1], [2], [3], [4]]
    .ok (totalSquaredError [1, 1, 9, 9] O, totalSquaredError [1, 1, 9, 9] O')) = Res.ok (64, 0) := by decide +kernel

end OpenML
