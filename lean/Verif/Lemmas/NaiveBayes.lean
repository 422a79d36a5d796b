import Verif.Model.NaiveBayes
import Verif.Spec.NaiveBayes
import Verif.Spec.Stats
import Verif.Spec.Extreme
import Verif.Lemmas.Analytic
import Verif.Lemmas.Stats
import Verif.Lemmas.Extreme
import Verif.Lemmas.Argsort
import Verif.Lemmas.KDSort
import Verif.Lemmas.MapRes

/-!
# Lemmas about naive Bayes
-/

set_option linter.unusedSectionVars false

namespace OpenML.NB
open Spec

section counting

variable {α : Type} [Field α] [LinearOrder α] [IsStrictOrderedRing α]

/-- The count stored for a label. -/
def stored (m : List (α × Nat)) (k : α) : Nat := ((m.filter fun e => e.1 = k).map Prod.snd).sum

theorem stored_countLabel (m : List (α × Nat)) (y k : α) :
    stored (countLabel m y) k = stored m k + if y = k then 1 else 0 := by
  induction m with
  | nil => by_cases h : y = k <;> simp [countLabel, stored, h]
  | cons e m ih =>
    obtain ⟨q, c⟩ := e
    simp only [stored] at ih ⊢
    simp only [countLabel]
    split
    · by_cases h : y = k <;> simp [h, add_comm]
    · split
      · next h2 =>
        subst h2
        by_cases h : y = k
        · simp [h]; omega
        · simp [h]
      · by_cases h : q = k
        · simp only [List.filter_cons, h, decide_true, if_true, List.map_cons, List.sum_cons, ih]; omega
        · simp only [List.filter_cons, h, decide_false, Bool.false_eq_true, if_false, ih]

theorem total_countLabel (m : List (α × Nat)) (y : α) : ((countLabel m y).map Prod.snd).sum = (m.map Prod.snd).sum + 1 := by
  induction m with
  | nil => simp [countLabel]
  | cons e m ih =>
    obtain ⟨q, c⟩ := e
    simp only [countLabel]
    split
    · simp; omega
    · split
      · simp; omega
      · simp [ih]; omega

theorem keys_countLabel (m : List (α × Nat)) (y k : α) : k ∈ classesOf (countLabel m y) ↔ k = y ∨ k ∈ classesOf m := by
  unfold classesOf
  induction m with
  | nil => simp [countLabel]
  | cons e m ih =>
    obtain ⟨q, c⟩ := e
    simp only [countLabel]
    split
    · simp
    · split
      · next h => subst h; simp
      · rw [List.map_cons, List.mem_cons, ih, List.map_cons, List.mem_cons]; tauto

theorem sorted_countLabel (m : List (α × Nat)) (y : α) (h : (classesOf m).Pairwise (· < ·)) :
    (classesOf (countLabel m y)).Pairwise (· < ·) := by
  induction m with
  | nil => simp [countLabel, classesOf]
  | cons e m ih =>
    obtain ⟨q, c⟩ := e
    have h' := h
    simp only [classesOf, List.map_cons, List.pairwise_cons] at h
    simp only [countLabel]
    split
    · next hlt =>
      simp only [classesOf, List.map_cons, List.pairwise_cons]
      refine ⟨?_, h.1, h.2⟩
      intro b hb
      rcases List.mem_cons.mp hb with rfl | hb
      · exact hlt
      · exact hlt.trans (h.1 b hb)
    · split
      · exact h'
      · next h1 h2 =>
        have hq : q < y := lt_of_le_of_ne (not_lt.mp h1) fun h => h2 h.symm
        have := ih h.2
        simp only [classesOf, List.map_cons, List.pairwise_cons] at this ⊢
        refine ⟨?_, this⟩
        intro b hb
        rcases (keys_countLabel m y b).mp hb with rfl | hb
        · exact hq
        · exact h.1 b hb

theorem pos_countLabel (m : List (α × Nat)) (y : α) (h : ∀ e ∈ m, 0 < e.2) : ∀ e ∈ countLabel m y, 0 < e.2 := by
  induction m with
  | nil => simp [countLabel]
  | cons e m ih =>
    obtain ⟨q, c⟩ := e
    have hc := h (q, c) (by simp)
    have ih' := ih fun e he => h e (by simp [he])
    simp only [countLabel]
    split
    · intro e he
      rcases List.mem_cons.mp he with rfl | he
      · exact Nat.one_pos
      · exact h e he
    · split
      · intro e he
        rcases List.mem_cons.mp he with rfl | he
        · exact Nat.succ_pos _
        · exact h e (by simp [he])
      · intro e he
        rcases List.mem_cons.mp he with rfl | he
        · exact hc
        · exact ih' e he

/-- The map holds the counts of the labels in `l`. -/
structure Holds (m : List (α × Nat)) (l : List α) : Prop where
  sorted : (classesOf m).Pairwise (· < ·)
  keys : ∀ k, k ∈ classesOf m ↔ k ∈ l
  total : (m.map Prod.snd).sum = l.length
  stored : ∀ k, stored m k = l.count k

theorem holds_nil : Holds ([] : List (α × Nat)) [] := ⟨by simp [classesOf], by simp [classesOf], rfl, by simp [stored]⟩

theorem holds_countLabels (m : List (α × Nat)) (l y : List α) (h : Holds m l) : Holds (countLabels m y) (l ++ y) := by
  unfold countLabels
  induction y generalizing m l with
  | nil => simpa using h
  | cons a y ih =>
    have : Holds (countLabel m a) (l ++ [a]) := by
      refine ⟨sorted_countLabel m a h.sorted, ?_, ?_, ?_⟩
      · intro k
        rw [keys_countLabel, h.keys]
        simp only [List.mem_append, List.mem_singleton]
        tauto
      · rw [total_countLabel, h.total]; simp
      · intro k
        rw [stored_countLabel, h.stored, List.count_append]
        by_cases hk : a = k
        · simp [hk]
        · simp [hk]
    have := ih _ _ this
    simpa [List.foldl_cons, List.append_assoc] using this

theorem holds_after (fits : List (List α)) : Holds (labelMapAfter fits) fits.flatten := by
  have key : ∀ (fits : List (List α)) m l, Holds m l → Holds (fits.foldl countLabels m) (l ++ fits.flatten) := by
    intro fits
    induction fits with
    | nil => intro m l h; simpa using h
    | cons y fits ih =>
      intro m l h
      have := ih _ _ (holds_countLabels m l y h)
      simpa [List.append_assoc] using this
  simpa [labelMapAfter] using key fits [] [] holds_nil

/-- Entries of a map with increasing keys are the stored counts. -/
theorem entry_stored (m : List (α × Nat)) (h : (classesOf m).Pairwise (· < ·)) (e : α × Nat) (he : e ∈ m) :
    e.2 = stored m e.1 := by
  unfold stored
  induction m with
  | nil => simp at he
  | cons q m ih =>
    simp only [classesOf, List.map_cons, List.pairwise_cons] at h
    rcases List.mem_cons.mp he with rfl | he'
    · have : m.filter (fun x => decide (x.1 = e.1)) = [] := by
        rw [List.filter_eq_nil_iff]
        intro x hx
        have := h.1 x.1 (List.mem_map.mpr ⟨x, hx, rfl⟩)
        simpa using this.ne'
      simp [this]
    · have hlt := h.1 e.1 (List.mem_map.mpr ⟨e, he', rfl⟩)
      rw [ih h.2 he', List.filter_cons]
      simp [hlt.ne]

theorem priors_spec (m : List (α × Nat)) (l : List α) (h : Holds m l) (n : Nat) :
    List.Forall₂ (fun k p => p = (l.count k : α) / (n : α)) (classesOf m) (priorsOf m n) ∧
    (priorsOf m n).sum = (l.length : α) / (n : α) := by
  constructor
  · unfold classesOf priorsOf
    rw [List.forall₂_map_left_iff, List.forall₂_map_right_iff, List.forall₂_same]
    intro e he
    rw [entry_stored m h.sorted e he, h.stored]
  · rw [← h.total]
    unfold priorsOf
    clear h
    induction m with
    | nil => simp
    | cons e m ih => simp only [List.map_cons, List.sum_cons, ih]; push_cast; rw [add_div]

/-! ### The rows of a class -/

theorem zip_label (X : List (List α)) (y : List α) (d : Nat) (hx : ∀ r ∈ X, r.length = d) (hy : y.length = X.length) (b : α) :
    ((List.zipWith (· ++ ·) X (y.map fun b => [b])).filter fun row => row[d]? == some b) =
      ((X.zip y).filter fun e => e.2 = b).map fun e => e.1 ++ [e.2] := by
  induction X generalizing y with
  | nil => simp
  | cons r X ih =>
    match y, hy with
    | a :: y, hy =>
      have hr := hx r (by simp)
      have hd : (r ++ [a])[d]? = some a := by rw [List.getElem?_append_right (by omega)]; simp [hr]
      simp only [List.map_cons, List.zipWith_cons_cons, List.filter_cons, List.zip_cons_cons, hd]
      rw [ih y (fun q hq => hx q (by simp [hq])) (by simpa using hy)]
      by_cases h : a = b <;> simp [h]

theorem groups_spec (X : DMat α) (hx : X.WF) (y : List α) (hy : y.length = X.nrows) (hd : 2 ≤ X.ncols) (labels : List α) :
    groups X y labels = .ok (labels.map fun b => ⟨X.ncols, classRows X.rows y b⟩) := by
  have hh : MatOps.hstack X (⟨1, y.map fun b => [b]⟩ : DMat α) =
      .ok ⟨X.ncols + 1, List.zipWith (· ++ ·) X.rows (y.map fun b => [b])⟩ := by
    rw [MatOps.hstack, if_neg (by simp [DMat.nrows, hy] at *)]
  simp only [groups, hh, Res.bind_ok]
  apply Analytic.mapRes_eq_map
  intro b _
  have hrow : ∀ row ∈ ((X.rows.zip y).filter fun e => e.2 = b).map (fun e => e.1 ++ [e.2]),
      mapRes (readAt row) (linSpaced (X.ncols + 1) 0 (X.ncols + 1)) = .ok row := by
    intro row hr
    obtain ⟨e, he, rfl⟩ := List.mem_map.mp hr
    have hl : (e.1 ++ [e.2]).length = X.ncols + 1 := by
      simp [hx _ (List.of_mem_zip (List.mem_filter.mp he).1).1]
    rw [Argsort.linSpaced_ge_three (by omega), ← hl]
    have := Lists.mapRes_readAt (e.1 ++ [e.2]) (List.range (e.1 ++ [e.2]).length) fun i hi => List.mem_range.mp hi
    rw [this, Lists.filterMap_idx_range]
  simp only [groupOf, rowsOfLabel, zip_label X.rows y X.ncols hx hy b]
  rw [Analytic.mapRes_eq_map _ id _ hrow]
  simp only [Res.bind_ok, List.map_map, classRows]
  congr 2
  apply List.map_congr_left
  intro e he
  have hl : e.1.length = X.ncols := hx _ (List.of_mem_zip (List.mem_filter.mp he).1).1
  simp [hl]

/-- With fewer than two features the column index `ncols` is read. -/
theorem groups_ub (X : DMat α) (hx : X.WF) (y : List α) (hy : y.length = X.nrows) (hn : 0 < X.nrows) (hd : X.ncols < 2)
    (labels : List α) (hl : ∀ b ∈ y, b ∈ labels) : groups X y labels = .ub := by
  have hh : MatOps.hstack X (⟨1, y.map fun b => [b]⟩ : DMat α) =
      .ok ⟨X.ncols + 1, List.zipWith (· ++ ·) X.rows (y.map fun b => [b])⟩ := by
    rw [MatOps.hstack, if_neg (by simp [DMat.nrows, hy] at *)]
  simp only [groups, hh, Res.bind_ok]
  have hrow : ∀ b, ∀ row ∈ ((X.rows.zip y).filter fun e => e.2 = b).map (fun e => e.1 ++ [e.2]),
      mapRes (readAt row) (linSpaced (X.ncols + 1) 0 (X.ncols + 1)) = .ub := by
    intro b row hr
    obtain ⟨e, he, rfl⟩ := List.mem_map.mp hr
    have hl : (e.1 ++ [e.2]).length = X.ncols + 1 := by
      simp [hx _ (List.of_mem_zip (List.mem_filter.mp he).1).1]
    rcases (by omega : X.ncols = 0 ∨ X.ncols = 1) with h | h
    · rw [h, Argsort.linSpaced_one]
      simp [mapRes, readAt_of_ge (show (e.1 ++ [e.2]).length ≤ 1 by omega)]
    · rw [h, Argsort.linSpaced_two]
      simp [mapRes, readAt_of_ge (show (e.1 ++ [e.2]).length ≤ 2 by omega), readAt_of_lt (show 0 < (e.1 ++ [e.2]).length by omega)]
  have hg : ∀ b, groupOf X.ncols ⟨X.ncols + 1, List.zipWith (· ++ ·) X.rows (y.map fun b => [b])⟩ b =
      if ((X.rows.zip y).filter fun e => e.2 = b) = [] then .ok ⟨X.ncols, []⟩ else .ub := by
    intro b
    simp only [groupOf, rowsOfLabel, zip_label X.rows y X.ncols hx hy b]
    have := hrow b
    split
    · next h => simp [h, mapRes]
    · next h =>
      have : mapRes (fun row : List α => mapRes (readAt row) (linSpaced (X.ncols + 1) 0 (X.ncols + 1)))
          (((X.rows.zip y).filter fun e => e.2 = b).map fun e => e.1 ++ [e.2]) = .ub := by
        refine mapRes_ub _ _ (fun a ha => Or.inr (hrow b a ha)) ?_
        obtain ⟨e, he⟩ := List.exists_mem_of_ne_nil _ h
        exact ⟨e.1 ++ [e.2], List.mem_map.mpr ⟨e, he, rfl⟩, hrow b _ (List.mem_map.mpr ⟨e, he, rfl⟩)⟩
      rw [this]
      rfl
  refine mapRes_ub _ _ (fun b _ => ?_) ?_
  · rw [hg]
    split
    · exact Or.inl ⟨_, rfl⟩
    · exact Or.inr rfl
  · have hy0 : 0 < y.length := by omega
    have hx0 : 0 < X.rows.length := hn
    refine ⟨y[0], hl _ (List.getElem_mem hy0), ?_⟩
    rw [hg, if_neg]
    intro h
    rw [List.filter_eq_nil_iff] at h
    have hmem : (X.rows[0], y[0]) ∈ X.rows.zip y := by
      refine List.mem_iff_getElem.mpr ⟨0, by simp; omega, by simp⟩
    exact h _ hmem (by simp)

theorem col_classRows (d : Nat) (rows : List (List α)) (h : ∀ r ∈ rows, r.length = d) (f : Nat) (hf : f < d) :
    (⟨d, rows⟩ : DMat α).col f = featureOf rows f := by
  unfold DMat.col featureOf
  simp only
  induction rows with
  | nil => rfl
  | cons r rs ih =>
    have hr := h r (by simp)
    rw [List.filterMap_cons, List.getElem?_eq_getElem (by omega), ih fun q hq => h q (by simp [hq])]
    simp [hr, hf]

theorem cols_classRows (d : Nat) (rows : List (List α)) (h : ∀ r ∈ rows, r.length = d) :
    (⟨d, rows⟩ : DMat α).cols = (List.range d).map (featureOf rows) := by
  unfold DMat.cols
  exact List.map_congr_left fun f hf => col_classRows d rows h f (List.mem_range.mp hf)

theorem classRows_width (X : DMat α) (hx : X.WF) (y : List α) (b : α) : ∀ r ∈ classRows X.rows y b, r.length = X.ncols := by
  intro r hr
  obtain ⟨e, he, rfl⟩ := List.mem_map.mp hr
  exact hx _ (List.of_mem_zip (List.mem_filter.mp he).1).1

theorem classRows_ne_nil (X : List (List α)) (y : List α) (hy : y.length = X.length) (b : α) (hb : b ∈ y) :
    classRows X y b ≠ [] := by
  obtain ⟨i, hi, rfl⟩ := List.mem_iff_getElem.mp hb
  have hi' : i < X.length := by omega
  refine List.ne_nil_of_mem (a := X[i]) (List.mem_map.mpr ⟨(X[i], y[i]), List.mem_filter.mpr ⟨?_, by simp⟩, rfl⟩)
  exact List.mem_iff_getElem.mpr ⟨i, by simp; omega, by simp⟩

theorem definedRow_some (n : Nat) (l : List α) : definedRow (.ok (⟨n, [l.map some]⟩ : DMat (Option α))) = .ok l := by
  have : mapRes (fun o : Option α => match o with | some v => Res.ok v | none => .ub) (l.map some) = .ok l := by
    induction l with
    | nil => rfl
    | cons a l ih => simp [mapRes, ih]
  simp only [definedRow, Res.bind_ok, readAt, List.getElem?_cons_zero]
  exact this

theorem updateMeanVariance_spec (X : DMat α) (hx : X.WF) (y : List α) (hy : y.length = X.nrows) (hd : 2 ≤ X.ncols)
    (labels : List α) (hl : ∀ b ∈ labels, b ∈ y) :
    updateMeanVariance X y labels = .ok
      ⟨labels.map fun b => (List.range X.ncols).map fun f => average (featureOf (classRows X.rows y b) f),
       labels.map fun b => (List.range X.ncols).map fun f => meanSquaredDeviation (featureOf (classRows X.rows y b) f)⟩ := by
  have hf : ∀ b ∈ labels, ∀ f, featureOf (classRows X.rows y b) f ≠ [] := by
    intro b hb f
    simpa [featureOf] using classRows_ne_nil X.rows y hy b (hl b hb)
  simp only [updateMeanVariance, groups_spec X hx y hy hd, Res.bind_ok]
  have e1 : mapRes (fun g => definedRow (Stats.mean g 0)) (labels.map fun b => (⟨X.ncols, classRows X.rows y b⟩ : DMat α)) =
      .ok (labels.map fun b => (List.range X.ncols).map fun f => average (featureOf (classRows X.rows y b) f)) := by
    rw [mapRes_map]
    apply Analytic.mapRes_eq_map
    intro b hb
    have : (⟨X.ncols, classRows X.rows y b⟩ : DMat α).cols.map Stats.meanLine =
        ((List.range X.ncols).map fun f => average (featureOf (classRows X.rows y b) f)).map some := by
      rw [cols_classRows _ _ (classRows_width X hx y b), List.map_map, List.map_map]
      apply List.map_congr_left
      intro f _
      simp [Stats.meanLine, hf b hb f, average]
    simp only [Function.comp_apply, Stats.mean, Stats.reduce, if_true, this]
    exact definedRow_some _ _
  have e2 : mapRes (fun g => definedRow (Stats.var g 0)) (labels.map fun b => (⟨X.ncols, classRows X.rows y b⟩ : DMat α)) =
      .ok (labels.map fun b => (List.range X.ncols).map fun f => meanSquaredDeviation (featureOf (classRows X.rows y b) f)) := by
    rw [mapRes_map]
    apply Analytic.mapRes_eq_map
    intro b hb
    have : (⟨X.ncols, classRows X.rows y b⟩ : DMat α).cols.map Stats.varLine =
        ((List.range X.ncols).map fun f => meanSquaredDeviation (featureOf (classRows X.rows y b) f)).map some := by
      rw [cols_classRows _ _ (classRows_width X hx y b), List.map_map, List.map_map]
      apply List.map_congr_left
      intro f _
      simp only [Function.comp_apply]
      rw [Stats.varLine_eq (hf b hb f)]
    simp only [Function.comp_apply, Stats.var, Stats.reduce, if_true, this]
    exact definedRow_some _ _
  rw [e1, e2]
  rfl

theorem maxEntry_spec (rows : List (List α)) (h : rows.flatten ≠ []) :
    ∃ t, maxEntry rows = .ok t ∧ t ∈ rows.flatten ∧ ∀ a ∈ rows.flatten, a ≤ t := by
  have key : ∀ (l : List α) a, l.foldl max a ∈ a :: l ∧ ∀ b ∈ a :: l, b ≤ l.foldl max a := by
    intro l
    induction l with
    | nil => intro a; simp
    | cons c l ih =>
      intro a
      obtain ⟨h1, h2⟩ := ih (max a c)
      rw [List.foldl_cons]
      constructor
      · rcases List.mem_cons.mp h1 with h | h
        · rw [h]
          rcases max_choice a c with h' | h' <;> rw [h'] <;> simp
        · simp [h]
      · intro b hb
        have hm := h2 (max a c) (by simp)
        rcases List.mem_cons.mp hb with rfl | hb
        · exact (le_max_left _ _).trans hm
        · rcases List.mem_cons.mp hb with rfl | hb
          · exact (le_max_right _ _).trans hm
          · exact h2 b (by simp [hb])
  unfold maxEntry
  match hf : rows.flatten, h with
  | a :: l, _ => exact ⟨_, rfl, key l a⟩

theorem sum_flatten_eq (d : Nat) (rows : List (List α)) (h : ∀ r ∈ rows, r.length = d) :
    rows.flatten.sum = ((List.range d).map fun f => (featureOf rows f).sum).sum := by
  induction rows with
  | nil => simp [featureOf]
  | cons r rs ih =>
    rw [List.flatten_cons, List.sum_append, ih fun q hq => h q (by simp [hq])]
    have hr : r.sum = ((List.range d).map fun f => r.getD f 0).sum := by
      congr 1
      have hl := h r (by simp)
      apply List.ext_getElem (by simp [hl])
      intro i h1 h2
      simp [h1]
    rw [hr, ← List.sum_map_add]
    congr 1

theorem countGroup_spec (d : Nat) (rows : List (List α)) (h : ∀ r ∈ rows, r.length = d) :
    countGroup false ⟨d, rows⟩ = .ok ((List.range d).map (fun f => (featureOf rows f).sum),
      ((List.range d).map fun f => (featureOf rows f).sum).sum) := by
  have h1 : Stats.sum (⟨d, rows⟩ : DMat α) 0 = .ok ⟨d, [(List.range d).map fun f => (featureOf rows f).sum]⟩ := by
    simp only [Stats.sum, Stats.reduce, if_true, cols_classRows d rows h, List.map_map]
    rfl
  have h2 : Stats.sum (⟨d, rows⟩ : DMat α) (-1) =
      .ok ⟨1, [[((List.range d).map fun f => (featureOf rows f).sum).sum]]⟩ := by
    rw [← sum_flatten_eq d rows h]
    simp [Stats.sum, Stats.reduce, MatOps.flattenMat]
  simp [countGroup, h1, h2, readAt]

theorem countGroup_checked (g : DMat α) (h : g.ncols ≠ 1) : countGroup true g = .ub := by
  simp [countGroup, Stats.sum, Stats.reduce, readAt, h]

end counting

section scores

theorem gaussianLL_eq (mean var x : List ℝ) (h1 : x.length = mean.length) (h2 : x.length = var.length)
    (hv : ∀ v ∈ var, 0 < v) : gaussianLL mean var x = .ok (Real.log (independentPdf mean var x)) := by
  rw [gaussianLL, if_pos ⟨h1, h2⟩]
  congr 1
  have hpos : ∀ (mean var x : List ℝ), (∀ v ∈ var, 0 < v) → 0 < independentPdf mean var x := by
    intro mean var x hv
    refine List.prod_pos ?_
    intro a ha
    obtain ⟨i, hi, rfl⟩ := List.mem_iff_getElem.mp ha
    rw [List.getElem_zipWith]
    have hvi : 0 < ((mean.zip var)[i]'(by simp at hi ⊢; omega)).2 := by
      rw [List.getElem_zip]; exact hv _ (List.getElem_mem _)
    have : 0 < 2 * Real.pi * ((mean.zip var)[i]'(by simp at hi ⊢; omega)).2 := by positivity
    exact mul_pos (one_div_pos.mpr (Real.sqrt_pos.mpr this)) (Real.exp_pos _)
  induction x generalizing mean var with
  | nil =>
    rw [List.length_nil] at h1 h2
    rw [List.length_eq_zero_iff.mp h1.symm, List.length_eq_zero_iff.mp h2.symm]
    simp [sumLogVar, independentPdf]
  | cons a x ih =>
    match mean, var, h1, h2 with
    | m :: mean, v :: var, h1, h2 =>
      have hv0 : 0 < v := hv v (by simp)
      have hi := ih mean var (by simpa using h1) (by simpa using h2) fun q hq => hv q (by simp [hq])
      have hp : independentPdf (m :: mean) (v :: var) (a :: x) = normalPdf m v a * independentPdf mean var x := by
        simp [independentPdf]
      have hq : 0 < 2 * Real.pi * v := by positivity
      have hn : 0 < normalPdf m v a := mul_pos (one_div_pos.mpr (Real.sqrt_pos.mpr hq)) (Real.exp_pos _)
      rw [hp, Real.log_mul hn.ne' (hpos mean var x fun q hq => hv q (by simp [hq])).ne', ← hi]
      have hl : Real.log (normalPdf m v a) = -(1 / 2) * Real.log (v * 2 * Real.pi) - (a - m) ^ 2 / v * (1 / 2) := by
        rw [normalPdf, Real.log_mul (one_div_pos.mpr (Real.sqrt_pos.mpr hq)).ne' (Real.exp_pos _).ne', Real.log_exp,
          one_div, Real.log_inv, Real.log_sqrt hq.le, show 2 * Real.pi * v = v * 2 * Real.pi by ring]
        field_simp
        ring
      rw [hl]
      simp only [sumLogVar, List.map_cons, List.sum_cons, List.zipWith_cons_cons]
      ring

theorem independentPdf_pos (mean var x : List ℝ) (hv : ∀ v ∈ var, 0 < v) : 0 < independentPdf mean var x := by
  refine List.prod_pos ?_
  intro a ha
  obtain ⟨i, hi, rfl⟩ := List.mem_iff_getElem.mp ha
  rw [List.getElem_zipWith]
  have hvi : 0 < ((mean.zip var)[i]'(by simp at hi ⊢; omega)).2 := by
    rw [List.getElem_zip]; exact hv _ (List.getElem_mem _)
  have : 0 < 2 * Real.pi * ((mean.zip var)[i]'(by simp at hi ⊢; omega)).2 := by positivity
  exact mul_pos (one_div_pos.mpr (Real.sqrt_pos.mpr this)) (Real.exp_pos _)

theorem multinomialLL_eq (alpha : ℝ) (d : Nat) (counts : List ℝ) (total : ℝ) (x : List ℝ) (h : x.length = counts.length) :
    multinomialLL alpha d counts total x =
      .ok (List.zipWith (fun a c => a * Real.log ((c + alpha) / (total + alpha * (d : ℝ)))) x counts).sum := by
  have key : ∀ (pre : List ℝ) (x cs : List ℝ), x.length = cs.length →
      mapRes (fun (e : ℝ × Nat) => do
        let c ← readAt (pre ++ cs) e.2
        .ok (e.1 * Real.log ((c + alpha) / (total + alpha * (d : ℝ))))) (x.zipIdx pre.length) =
      .ok (List.zipWith (fun a c => a * Real.log ((c + alpha) / (total + alpha * (d : ℝ)))) x cs) := by
    intro pre x
    induction x generalizing pre with
    | nil => intro cs _; simp [mapRes]
    | cons a x ih =>
      intro cs hc
      match cs, hc with
      | c :: cs, hc =>
        have h1 := ih (pre ++ [c]) cs (by simpa using hc)
        simp only [List.append_assoc, List.singleton_append, List.length_append, List.length_singleton] at h1
        have h2 : readAt (pre ++ c :: cs) pre.length = .ok c := by rw [readAt_eq_ok]; simp
        simp [List.zipIdx_cons, mapRes, h2, h1]
  have := key [] x counts h
  simp only [List.nil_append, List.length_nil] at this
  simp only [multinomialLL, this, Res.bind_ok]

/-- `predict_prob` applies softmax to each row. -/
theorem predictProb_spec (jll : DMat ℝ) (hx : jll.WF) (hc : 0 < jll.ncols) :
    predictProb jll.ncols jll = .ok ⟨jll.ncols, jll.rows.map softmaxOf⟩ := by
  have h1 : Analytic.logsumexp jll 1 = .ok (jll.rows.map fun l => Real.log (sumExp l)) := by
    rw [Analytic.logsumexp, if_pos rfl]
    exact Analytic.mapRes_eq_map _ _ _ fun l hl => Analytic.logsumexpLine_eq l (Analytic.rows_ne_nil hx hc l hl)
  have hflat : ∀ (n : Nat) (a : ℝ), (List.replicate n [a]).flatten = List.replicate n a := by
    intro n a
    induction n with
    | zero => rfl
    | succ n ih => rw [List.replicate_succ, List.flatten_cons, ih]; rfl
  simp only [predictProb, predictLogProb, h1, Res.bind_ok, MatOps.repeat']
  simp only [one_ne_zero, if_false, if_true, DMat.nrows, List.length_map, mul_one, and_self, Res.bind_ok, List.map_map]
  congr 2
  rw [List.zipWith_map_right, List.zipWith_self, List.map_map]
  apply List.map_congr_left
  intro r hr
  have hl := hx r hr
  have hp := Analytic.sumExp_pos r (Analytic.rows_ne_nil hx hc r hr)
  simp only [Function.comp_apply, hflat, softmaxOf]
  apply List.ext_getElem (by simp [hl])
  intro i h2 h3
  simp only [List.getElem_map, List.getElem_zipWith, List.getElem_replicate, Real.exp_sub, Real.exp_log hp]

/-- Softmax does not change where the first maximum stands. -/
theorem firstMax_softmax (l : List ℝ) (p : Nat) : IsFirstMax (softmaxOf l) p ↔ IsFirstMax l p := by
  unfold IsFirstMax softmaxOf
  have hmono : ∀ a b : ℝ, l ≠ [] → (Real.exp a / sumExp l ≤ Real.exp b / sumExp l ↔ a ≤ b) := by
    intro a b hl
    rw [div_le_div_iff_of_pos_right (Analytic.sumExp_pos l hl), Real.exp_le_exp]
  have hinj : ∀ a b : ℝ, l ≠ [] → (Real.exp a / sumExp l = Real.exp b / sumExp l ↔ a = b) := by
    intro a b hl
    rw [div_left_inj' (Analytic.sumExp_pos l hl).ne', Real.exp_eq_exp]
  constructor
  · rintro ⟨v, hv, hm⟩
    rw [List.getElem?_map] at hv
    obtain ⟨a, ha, rfl⟩ := Option.map_eq_some_iff.mp hv
    have hl : l ≠ [] := by rintro rfl; simp at ha
    refine ⟨a, ha, fun q w hq => ?_⟩
    have := hm q (Real.exp w / sumExp l) (by rw [List.getElem?_map, hq]; rfl)
    rw [hmono _ _ hl, hinj _ _ hl] at this
    exact this
  · rintro ⟨a, ha, hm⟩
    have hl : l ≠ [] := by rintro rfl; simp at ha
    refine ⟨Real.exp a / sumExp l, by rw [List.getElem?_map, ha]; rfl, fun q w hq => ?_⟩
    rw [List.getElem?_map] at hq
    obtain ⟨b, hb, rfl⟩ := Option.map_eq_some_iff.mp hq
    rw [hmono _ _ hl, hinj _ _ hl]
    exact hm q b hb

theorem predict_spec (jll : DMat ℝ) (hx : jll.WF) (hc : 0 < jll.ncols) :
    ∃ ps : List Nat, predict jll = .ok (ps.map fun (i : Nat) => (i : ℝ)) ∧
      List.Forall₂ (fun row p => IsFirstMax row p) jll.rows ps := by
  have key : ∀ rows : List (List ℝ), (∀ r ∈ rows, r ≠ []) → ∃ ps, mapRes maxCoeffIdx rows = .ok ps ∧
      List.Forall₂ (fun row p => IsFirstMax row p) rows ps := by
    intro rows hr
    induction rows with
    | nil => exact ⟨[], rfl, .nil⟩
    | cons r rs ih =>
      obtain ⟨ps, h1, h2⟩ := ih fun q hq => hr q (by simp [hq])
      obtain ⟨p, h3, h4⟩ := maxCoeffIdx_spec r (hr r (by simp))
      exact ⟨p :: ps, by simp [mapRes, h3, h1], .cons h4 h2⟩
  obtain ⟨ps, h1, h2⟩ := key jll.rows (Analytic.rows_ne_nil hx hc)
  exact ⟨ps, by simp [predict, MatOps.argmax, h1], h2⟩

end scores

end OpenML.NB
