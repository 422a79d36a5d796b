import Verif.Model.KMeans
import Verif.Spec.KMeans
import Verif.Spec.Extreme
import Verif.Lemmas.MapRes
import Verif.Lemmas.DMat
import Verif.Lemmas.KDBox
import Verif.Lemmas.Impurity
import Verif.Lemmas.Stats
import Mathlib.Tactic.Positivity
import Mathlib.Algebra.BigOperators.Intervals

/-!
# Lemmas about k-means
-/

set_option linter.unusedSectionVars false

namespace OpenML.KMeans
open Spec

variable {α : Type} [Field α] [LinearOrder α] [IsStrictOrderedRing α]

theorem rowDiff_sq (x c : List α) (h : x.length = c.length) :
    ∃ d, rowDiff x c = .ok d ∧ sqNorm d = sqDist x c ∧ d.length = c.length := by
  refine ⟨_, by rw [rowDiff, if_pos h], ?_, by simp [h]⟩
  simp only [sqNorm, sqDist, List.map_zipWith, sq]

/-- `arg` is the first minimum of the distances to the centroids seen so far. -/
theorem nearestFrom_spec (x : List α) (cs pre : List (List α)) (arg : Nat) (b : α)
    (hl : ∀ c ∈ cs, c.length = x.length) (hb : (pre.map (sqDist x))[arg]? = some b)
    (hm : ∀ (q : Nat) w, (pre.map (sqDist x))[q]? = some w → b ≤ w ∧ (w = b → arg ≤ q)) :
    ∃ j, nearestFrom x cs pre.length (some b) arg = .ok j ∧ IsFirstMin ((pre ++ cs).map (sqDist x)) j := by
  induction cs generalizing pre arg b with
  | nil => exact ⟨arg, rfl, b, by simpa using hb, by simpa using hm⟩
  | cons c cs ih =>
    obtain ⟨d, h1, h2, -⟩ := rowDiff_sq x c (hl c (by simp)).symm
    have harg : arg < pre.length := by
      have := (List.getElem?_eq_some_iff.mp hb).1
      simpa using this
    have hlast : ∀ (q : Nat) w, ((pre ++ [c]).map (sqDist x))[q]? = some w →
        (q < pre.length ∧ (pre.map (sqDist x))[q]? = some w) ∨ (q = pre.length ∧ w = sqDist x c) := by
      intro q w hq
      rw [List.map_append, List.getElem?_append] at hq
      split at hq
      · next hlt => exact Or.inl ⟨by simpa using hlt, hq⟩
      · next hlt =>
        simp only [List.length_map, not_lt] at hlt
        simp only [List.length_map, List.map_cons, List.map_nil] at hq
        have hq0 : q - pre.length = 0 := by
          have := (List.getElem?_eq_some_iff.mp hq).1
          simpa using this
        rw [hq0] at hq
        simp at hq
        exact Or.inr ⟨by omega, hq.symm⟩
    simp only [nearestFrom, h1, Res.bind_ok, h2, Option.all_some, decide_eq_true_iff]
    split
    · next hlt =>
      have := ih (pre ++ [c]) pre.length (sqDist x c) (fun c' hc' => hl c' (by simp [hc'])) (by simp) (by
        intro q w hq
        rcases hlast q w hq with ⟨-, h⟩ | ⟨rfl, rfl⟩
        · have := (hm q w h).1
          exact ⟨(hlt.trans_le this).le, fun h' => absurd h' (hlt.trans_le this).ne'⟩
        · exact ⟨le_rfl, fun _ => le_rfl⟩)
      simpa [List.append_assoc] using this
    · next hlt =>
      have := ih (pre ++ [c]) arg b (fun c' hc' => hl c' (by simp [hc']))
        (by rw [List.map_append, List.getElem?_append_left (by simpa using harg)]; exact hb) (by
        intro q w hq
        rcases hlast q w hq with ⟨-, h⟩ | ⟨rfl, rfl⟩
        · exact hm q w h
        · exact ⟨not_lt.mp hlt, fun _ => harg.le⟩)
      simpa [List.append_assoc] using this

theorem nearest_spec (C : List (List α)) (x : List α) (hC : C ≠ []) (hl : ∀ c ∈ C, c.length = x.length) :
    ∃ j, nearest C x = .ok j ∧ IsFirstMin (C.map (sqDist x)) j := by
  cases C with
  | nil => exact absurd rfl hC
  | cons c cs =>
    obtain ⟨d, h1, h2, -⟩ := rowDiff_sq x c (hl c (by simp)).symm
    have := nearestFrom_spec x cs [c] 0 (sqDist x c) (fun c' hc' => hl c' (by simp [hc'])) rfl (by
      intro q w hq
      cases q with
      | zero => simp at hq; subst hq; exact ⟨le_rfl, fun _ => le_rfl⟩
      | succ q => simp at hq)
    simpa [nearest, nearestFrom, h1, h2] using this

theorem minSqDist_spec (x : List α) (C : List (List α)) (hC : C ≠ []) :
    (∃ c ∈ C, minSqDist x C = sqDist x c) ∧ ∀ c ∈ C, minSqDist x C ≤ sqDist x c := by
  induction C with
  | nil => exact absurd rfl hC
  | cons c cs ih =>
    cases cs with
    | nil => exact ⟨⟨c, by simp, rfl⟩, by simp [minSqDist]⟩
    | cons c' cs =>
      obtain ⟨⟨e, he, h1⟩, h2⟩ := ih (by simp)
      simp only [minSqDist]
      constructor
      · rcases min_choice (sqDist x c) (minSqDist x (c' :: cs)) with h | h
        · exact ⟨c, by simp, h⟩
        · exact ⟨e, by simp [List.mem_cons.mp he], by rw [h, h1]⟩
      · intro q hq
        rcases List.mem_cons.mp hq with rfl | hq
        · exact min_le_left _ _
        · exact (min_le_right _ _).trans (h2 q hq)

theorem minSqDist_of_firstMin (x : List α) (C : List (List α)) (j : Nat) (c : List α) (hj : C[j]? = some c)
    (h : IsFirstMin (C.map (sqDist x)) j) : minSqDist x C = sqDist x c := by
  have hC : C ≠ [] := by rintro rfl; simp at hj
  obtain ⟨⟨e, he, h1⟩, h2⟩ := minSqDist_spec x C hC
  obtain ⟨v, hv, hm⟩ := h
  rw [List.getElem?_map, hj] at hv
  cases hv
  obtain ⟨k, hk, hke⟩ := List.mem_iff_getElem.mp he
  have := (hm k (sqDist x e) (by rw [List.getElem?_map, List.getElem?_eq_getElem hk, hke]; rfl)).1
  exact le_antisymm (h2 c (List.mem_of_getElem? hj)) (h1 ▸ this)

theorem sqDist_coord (d : Nat) (x c : List α) (hx : x.length = d) (hc : c.length = d) :
    sqDist x c = ∑ i ∈ Finset.range d, (x.getD i 0 - c.getD i 0) ^ 2 := by
  induction d generalizing x c with
  | zero =>
    rw [List.length_eq_zero_iff] at hx
    simp [hx, sqDist]
  | succ d ih =>
    match x, c, hx, hc with
    | a :: x, b :: c, hx, hc =>
      rw [Finset.sum_range_succ']
      have := ih x c (by simpa using hx) (by simpa using hc)
      simp only [sqDist] at this
      simp only [sqDist, List.zipWith_cons_cons, List.sum_cons, this, List.getD_cons_succ, List.getD_cons_zero]
      ring

theorem sqDist_nonneg (x c : List α) : 0 ≤ sqDist x c := by
  refine List.sum_nonneg ?_
  intro a ha
  obtain ⟨i, hi, rfl⟩ := List.mem_iff_getElem.mp ha
  rw [List.getElem_zipWith]
  positivity

theorem minSqDist_nonneg (x : List α) (C : List (List α)) : 0 ≤ minSqDist x C := by
  by_cases hC : C = []
  · simp [hC, minSqDist]
  · obtain ⟨⟨c, -, h⟩, -⟩ := minSqDist_spec x C hC
    rw [h]
    exact sqDist_nonneg x c

theorem meanRow_eq (d : Nat) (rows : List (List α)) (h : ∀ r ∈ rows, r.length = d) : meanRow d rows = centreOf d rows := by
  unfold meanRow centreOf DMat.cols
  rw [List.map_map]
  apply List.map_congr_left
  intro i hi
  have hi' : i < d := List.mem_range.mp hi
  have : DMat.col ⟨d, rows⟩ i = rows.map fun p => p.getD i 0 := by
    unfold DMat.col
    simp only
    clear hi
    induction rows with
    | nil => rfl
    | cons r rs ih =>
      have hr := h r (by simp)
      rw [List.filterMap_cons, List.getElem?_eq_getElem (by omega), ih fun q hq => h q (by simp [hq])]
      simp [hr, hi']
  simp only [Function.comp_apply]
  rw [this]
  simp

theorem length_centreOf (d : Nat) (rows : List (List α)) : (centreOf d rows).length = d := by simp [centreOf]

/-- The parallel axis identity. -/
theorem parallel_axis (d : Nat) (pts : List (List α)) (c : List α) (hp : ∀ p ∈ pts, p.length = d) (hc : c.length = d)
    (hne : pts ≠ []) : (pts.map fun p => sqDist p c).sum =
      (pts.map fun p => sqDist p (centreOf d pts)).sum + (pts.length : α) * sqDist (centreOf d pts) c := by
  have key : ∀ c : List α, c.length = d → (pts.map fun p => sqDist p c).sum =
      ∑ i ∈ Finset.range d, ((pts.map fun p => p.getD i 0).map fun a => (a - c.getD i 0) ^ 2).sum := by
    intro c hc
    clear hne
    induction pts with
    | nil => simp
    | cons p ps ih =>
      simp only [List.map_cons, List.sum_cons]
      rw [ih fun q hq => hp q (by simp [hq]), sqDist_coord d p c (hp p (by simp)) hc, ← Finset.sum_add_distrib]
  rw [key c hc, key _ (length_centreOf d pts), sqDist_coord d _ c (length_centreOf d pts) hc, Finset.mul_sum,
    ← Finset.sum_add_distrib]
  refine Finset.sum_congr rfl fun i hi => ?_
  have hi' : i < d := Finset.mem_range.mp hi
  have hn : (pts.length : α) ≠ 0 := by
    exact_mod_cast (List.length_pos_iff.mpr hne).ne'
  have hm : (centreOf d pts).getD i 0 = (pts.map fun p => p.getD i 0).sum / (pts.length : α) := by
    simp [centreOf, hi']
  rw [hm, Stats.sum_sq_dev, Stats.sum_sq_dev, List.length_map]
  field_simp
  ring

/-- Grouping a sum by labels. -/
theorem sum_by_label {β : Type} (Z : List (β × Nat)) (k : Nat) (h : ∀ e ∈ Z, e.2 < k) (f : β × Nat → α) :
    (Z.map f).sum = ∑ j ∈ Finset.range k, ((Z.filter fun e => e.2 = j).map f).sum := by
  induction Z with
  | nil => simp
  | cons e Z ih =>
    rw [List.map_cons, List.sum_cons, ih fun q hq => h q (by simp [hq])]
    have : ∀ j, (((e :: Z).filter fun e => decide (e.2 = j)).map f).sum =
        (if e.2 = j then f e else 0) + ((Z.filter fun e => decide (e.2 = j)).map f).sum := by
      intro j
      rw [List.filter_cons]
      by_cases hj : e.2 = j <;> simp [hj]
    simp only [this, Finset.sum_add_distrib, Finset.sum_ite_eq, Finset.mem_range, h e (by simp), if_true]

theorem members_eq (X : DMat α) (labels : List Nat) (c : Nat) :
    members X labels c = ((X.rows.zip labels).filter fun e => e.2 = c).map Prod.fst := by
  unfold members
  induction X.rows.zip labels with
  | nil => rfl
  | cons e l ih => by_cases h : e.2 = c <;> simp [h, ih]

theorem members_width (X : DMat α) (hx : X.WF) (labels : List Nat) (c : Nat) (r : List α) (hr : r ∈ members X labels c) :
    r.length = X.ncols := by
  rw [members_eq] at hr
  obtain ⟨e, he, rfl⟩ := List.mem_map.mp hr
  exact hx _ (List.of_mem_zip (List.mem_filter.mp he).1).1

theorem forall₂_imp_mem {β γ : Type} {R S : β → γ → Prop} {l : List β} {m : List γ} (h : List.Forall₂ R l m)
    (hi : ∀ a ∈ l, ∀ b, R a b → S a b) : List.Forall₂ S l m := by
  induction h with
  | nil => exact .nil
  | cons hab _ ih => exact .cons (hi _ (by simp) _ hab) (ih fun a ha => hi a (by simp [ha]))

theorem moveCenters_spec (checked : Bool) (X : DMat α) (hx : X.WF) (labels : List Nat) (hck : checked = false ∨ X.ncols = 1)
    (cs : List Nat) (hnd : cs.Nodup) (C diffs : List (List α)) (hlt : ∀ c ∈ cs, c < C.length)
    (hw : ∀ r ∈ C, r.length = X.ncols) : ∃ C' diffs', moveCenters checked X labels cs C diffs = .ok (C', diffs ++ diffs') ∧
      C'.length = C.length ∧ (∀ r ∈ C', r.length = X.ncols) ∧
      (∀ j, C'[j]? = if j ∈ cs then some (centreOf X.ncols (members X labels j)) else C[j]?) ∧
      List.Forall₂ (fun c d => sqNorm d = sqDist (centreOf X.ncols (members X labels c)) (C.getD c [])) cs diffs' := by
  induction cs generalizing C diffs with
  | nil => exact ⟨C, [], by simp [moveCenters], rfl, hw, by simp, .nil⟩
  | cons c cs ih =>
    rw [List.nodup_cons] at hnd
    have hc : c < C.length := hlt c (by simp)
    have hm : meanRow X.ncols (members X labels c) = centreOf X.ncols (members X labels c) :=
      meanRow_eq _ _ (members_width X hx labels c)
    have hlen : (centreOf X.ncols (members X labels c)).length = C[c].length := by
      rw [length_centreOf, hw _ (List.getElem_mem hc)]
    obtain ⟨d, h1, h2, h3⟩ := rowDiff_sq _ _ hlen
    have hif : ¬ (checked = true ∧ X.ncols ≠ 1) := by rcases hck with h | h <;> simp [h]
    obtain ⟨C', ds, e1, e2, e3, e4, e5⟩ := ih hnd.2 (C.set c (centreOf X.ncols (members X labels c))) (diffs ++ [d])
      (by intro q hq; rw [List.length_set]; exact hlt q (by simp [hq]))
      (by
        intro r hr
        rcases List.mem_or_eq_of_mem_set hr with h | h
        · exact hw r h
        · rw [h, length_centreOf])
    refine ⟨C', d :: ds, ?_, by rw [e2, List.length_set], e3, ?_, ?_⟩
    · simp only [moveCenters, readAt_of_lt hc, Res.bind_ok, hm, h1, hif, if_false, e1, List.append_assoc,
        List.singleton_append]
    · intro j
      rw [e4 j, List.getElem?_set]
      by_cases hj : j ∈ cs
      · simp [hj]
      · by_cases hjc : c = j
        · subst hjc
          simp [hc]
        · have : ¬ j = c := fun h => hjc h.symm
          simp [hj, hjc, this]
    · refine .cons ?_ ?_
      · rw [h2]
        simp [hc]
      · refine forall₂_imp_mem e5 fun q hq b hb => ?_
        have hqc : c ≠ q := fun h => hnd.1 (h ▸ hq)
        rw [hb, List.getD_eq_getElem?_getD, List.getElem?_set_ne hqc, ← List.getD_eq_getElem?_getD]

theorem predict_spec (X : DMat α) (hx : X.WF) (C : List (List α)) (hC : C ≠ []) (hw : ∀ r ∈ C, r.length = X.ncols) :
    ∃ labels, predict C X = .ok labels ∧
      List.Forall₂ (fun x j => IsFirstMin (C.map (sqDist x)) j) X.rows labels := by
  have key : ∀ rows : List (List α), (∀ r ∈ rows, r.length = X.ncols) → ∃ labels, mapRes (nearest C) rows = .ok labels ∧
      List.Forall₂ (fun x j => IsFirstMin (C.map (sqDist x)) j) rows labels := by
    intro rows hr
    induction rows with
    | nil => exact ⟨[], rfl, .nil⟩
    | cons r rs ih =>
      obtain ⟨ls, h1, h2⟩ := ih fun q hq => hr q (by simp [hq])
      obtain ⟨j, h3, h4⟩ := nearest_spec C r hC fun c hc => by rw [hw c hc, hr r (by simp)]
      exact ⟨j :: ls, by simp [mapRes, h3, h1], .cons h4 h2⟩
  exact key X.rows hx

theorem label_lt {x : List α} {C : List (List α)} {j : Nat} (h : IsFirstMin (C.map (sqDist x)) j) : j < C.length := by
  obtain ⟨v, hv, -⟩ := h
  simpa using (List.getElem?_eq_some_iff.mp hv).1

/-- The inertia, written with the chosen labels. -/
theorem inertia_eq {rows : List (List α)} {C : List (List α)} {labels : List Nat}
    (h : List.Forall₂ (fun x j => IsFirstMin (C.map (sqDist x)) j) rows labels) :
    inertia rows C = ((rows.zip labels).map fun e => sqDist e.1 (C.getD e.2 [])).sum := by
  unfold inertia
  induction h with
  | nil => rfl
  | cons h _ ih =>
    have hj := label_lt h
    rw [List.map_cons, List.sum_cons, List.zip_cons_cons, List.map_cons, List.sum_cons, ih,
      minSqDist_of_firstMin _ _ _ _ (List.getElem?_eq_getElem hj) h]
    simp [hj]

theorem inertia_le (rows : List (List α)) (C : List (List α)) (labels : List Nat) (hl : labels.length = rows.length)
    (h : ∀ j ∈ labels, j < C.length) :
    inertia rows C ≤ ((rows.zip labels).map fun e => sqDist e.1 (C.getD e.2 [])).sum := by
  unfold inertia
  induction rows generalizing labels with
  | nil => simp
  | cons r rs ih =>
    match labels, hl with
    | j :: ls, hl =>
      have hj := h j (by simp)
      rw [List.map_cons, List.sum_cons, List.zip_cons_cons, List.map_cons, List.sum_cons]
      refine add_le_add ?_ (ih ls (by simpa using hl) fun q hq => h q (by simp [hq]))
      have hC : C ≠ [] := by rintro rfl; simp at hj
      have := (minSqDist_spec r C hC).2 C[j] (List.getElem_mem hj)
      simpa [hj] using this

theorem iterate_spec (checked : Bool) (X : DMat α) (hx : X.WF) (hck : checked = false ∨ X.ncols = 1)
    (C : List (List α)) (hC : C ≠ []) (hw : ∀ r ∈ C, r.length = X.ncols) :
    ∃ labels C' diffs, predict C X = .ok labels ∧ iterate checked X C = .ok (C', diffs) ∧ C'.length = C.length ∧
      (∀ r ∈ C', r.length = X.ncols) ∧
      (∀ j, C'[j]? = if j ∈ labels then some (centreOf X.ncols (withLabel X.rows labels j)) else C[j]?) ∧
      List.Forall₂ (fun c d => sqNorm d = sqDist (C'.getD c []) (C.getD c [])) (Impurity.keys labels) diffs ∧
      inertia X.rows C' + ∑ j ∈ Finset.range C.length,
        ((withLabel X.rows labels j).length : α) * sqDist (C'.getD j []) (C.getD j []) ≤ inertia X.rows C := by
  have hmw : ∀ labels j, withLabel X.rows labels j = members X labels j := fun labels j => (members_eq X labels j).symm
  simp only [hmw]
  obtain ⟨labels, h1, h2⟩ := predict_spec X hx C hC hw
  have hlt : ∀ j ∈ labels, j < C.length := by
    intro j hj
    obtain ⟨i, hi, rfl⟩ := List.mem_iff_getElem.mp hj
    have hi' : i < X.rows.length := by rw [h2.length_eq]; exact hi
    exact label_lt (List.forall₂_iff_get.mp h2 |>.2 i hi' hi)
  obtain ⟨C', ds, e1, e2, e3, e4, e5⟩ := moveCenters_spec checked X hx labels hck (Impurity.keys labels)
    (Impurity.keys_nodup labels) C [] (fun c hc => hlt c ((Impurity.mem_keys labels c).mp hc)) hw
  have e4' : ∀ j, C'[j]? = if j ∈ labels then some (centreOf X.ncols (members X labels j)) else C[j]? := by
    intro j
    rw [e4 j]
    simp only [Impurity.mem_keys]
  refine ⟨labels, C', ds, h1, ?_, e2, e3, e4', ?_, ?_⟩
  · have h1' : mapRes (nearest C) X.rows = .ok labels := h1
    simp only [iterate, h1', Res.bind_ok, e1, List.nil_append]
  · refine forall₂_imp_mem e5 fun q hq b hb => ?_
    have : C'.getD q [] = centreOf X.ncols (members X labels q) := by
      rw [List.getD_eq_getElem?_getD, e4 q, if_pos hq]
      rfl
    rw [hb, this]
  · have hlen : labels.length = X.rows.length := h2.length_eq.symm
    have hz : ∀ e ∈ X.rows.zip labels, e.2 < C.length := fun e he => hlt _ (List.of_mem_zip he).2
    rw [inertia_eq h2, sum_by_label _ C.length hz]
    refine le_trans (add_le_add (inertia_le X.rows C' labels hlen fun j hj => by rw [e2]; exact hlt j hj) le_rfl) ?_
    rw [sum_by_label _ C.length hz, ← Finset.sum_add_distrib]
    refine Finset.sum_le_sum fun j hj => ?_
    have hj' : j < C.length := Finset.mem_range.mp hj
    have key : ∀ D : List (List α), (((X.rows.zip labels).filter fun e => e.2 = j).map
        fun e => sqDist e.1 (D.getD e.2 [])).sum = ((members X labels j).map fun p => sqDist p (D.getD j [])).sum := by
      intro D
      rw [members_eq, List.map_map]
      congr 1
      apply List.map_congr_left
      intro e he
      have : e.2 = j := by simpa using (List.mem_filter.mp he).2
      simp only [Function.comp_apply, this]
    rw [key, key]
    by_cases hne : members X labels j = []
    · simp [hne]
    · have hjl : j ∈ labels := by
        obtain ⟨p, hp⟩ := List.exists_mem_of_ne_nil _ hne
        rw [members_eq] at hp
        obtain ⟨e, he, -⟩ := List.mem_map.mp hp
        obtain ⟨h3, h4⟩ := List.mem_filter.mp he
        have : e.2 = j := by simpa using h4
        exact this ▸ (List.of_mem_zip h3).2
      have hD : C'.getD j [] = centreOf X.ncols (members X labels j) := by
        rw [List.getD_eq_getElem?_getD, e4' j, if_pos hjl]
        rfl
      rw [hD]
      refine (parallel_axis X.ncols _ _ (members_width X hx labels j) ?_ hne).ge
      have : C.getD j [] = C[j] := by simp [hj']
      rw [this]
      exact hw _ (List.getElem_mem hj')

theorem lloyd_spec (checked : Bool) (stop : List (List α) → Bool) (n : Nat) (X : DMat α) (hx : X.WF)
    (hck : checked = false ∨ X.ncols = 1)
    (C : List (List α)) (hC : C ≠ []) (hw : ∀ r ∈ C, r.length = X.ncols) :
    ∃ C', lloyd checked stop n X C = .ok C' ∧ C'.length = C.length ∧ (∀ r ∈ C', r.length = X.ncols) ∧
      inertia X.rows C' ≤ inertia X.rows C := by
  induction n generalizing C with
  | zero => exact ⟨C, rfl, rfl, hw, le_rfl⟩
  | succ n ih =>
    obtain ⟨labels, C', ds, -, h2, h3, h4, -, -, h7⟩ := iterate_spec checked X hx hck C hC hw
    have hle : inertia X.rows C' ≤ inertia X.rows C := by
      refine le_trans (le_add_of_nonneg_right ?_) h7
      exact Finset.sum_nonneg fun j _ => mul_nonneg (Nat.cast_nonneg _) (sqDist_nonneg _ _)
    simp only [lloyd, h2, Res.bind_ok]
    by_cases hs : stop ds = true
    · rw [if_pos hs]
      exact ⟨C', rfl, h3, h4, hle⟩
    · rw [if_neg hs]
      obtain ⟨D, g1, g2, g3, g4⟩ := ih C' (by
        intro h
        rw [h] at h3
        exact hC (List.length_eq_zero_iff.mp h3.symm)) h4
      exact ⟨D, g1, g2.trans h3, g3, g4.trans hle⟩

/-! ### Initialisation -/

theorem distancesTo_spec (X : DMat α) (hx : X.WF) (c : List α) (hc : c.length = X.ncols) :
    distancesTo X c = .ok (X.rows.map fun x => sqDist x c) := by
  have hrep : (MatOps.repeat' (⟨c.length, [c]⟩ : DMat α) X.nrows 0).rows = List.replicate X.rows.length c := by
    simp only [MatOps.repeat', if_true, DMat.nrows]
    induction X.rows.length with
    | zero => rfl
    | succ n ih => rw [List.replicate_succ, List.flatten_cons, ih]; rfl
  have key : ∀ rows : List (List α), (∀ r ∈ rows, r.length = X.ncols) →
      ∃ ds, mapRes (fun e : List α × List α => rowDiff e.1 e.2) (rows.zip (List.replicate rows.length c)) = .ok ds ∧
        ds.map sqNorm = rows.map fun x => sqDist x c := by
    intro rows hr
    induction rows with
    | nil => exact ⟨[], rfl, rfl⟩
    | cons r rs ih =>
      obtain ⟨ds, h1, h2⟩ := ih fun q hq => hr q (by simp [hq])
      obtain ⟨d, h3, h4, -⟩ := rowDiff_sq r c (by rw [hr r (by simp), hc])
      exact ⟨d :: ds, by simp [List.replicate_succ, mapRes, h3, h1], by simp [h4, h2]⟩
  obtain ⟨ds, h1, h2⟩ := key X.rows hx
  simp only [distancesTo, hrep, h1, Res.bind_ok, h2]

theorem minSqDist_append (x : List α) (C : List (List α)) (c : List α) (hC : C ≠ []) :
    minSqDist x (C ++ [c]) = min (minSqDist x C) (sqDist x c) := by
  induction C with
  | nil => exact absurd rfl hC
  | cons a C ih =>
    cases C with
    | nil => simp [minSqDist]
    | cons b C =>
      have := ih (by simp)
      rw [List.cons_append] at this
      simp only [List.cons_append, minSqDist, this, min_assoc]

theorem keepSmaller_spec (rows C : List (List α)) (c : List α) (hC : C ≠ []) :
    keepSmaller (rows.map fun x => minSqDist x C) (rows.map fun x => sqDist x c) =
      rows.map fun x => minSqDist x (C ++ [c]) := by
  induction rows with
  | nil => rfl
  | cons r rs ih =>
    simp only [keepSmaller, List.map_cons, List.zipWith_cons_cons] at ih ⊢
    rw [ih, minSqDist_append r C c hC]
    congr 1
    split
    · next h => exact (min_eq_left h.le).symm
    · next h => exact (min_eq_right (not_lt.mp h)).symm

theorem candidate_lt (closest : List α) (pot r : α) (h : closest ≠ []) : candidate closest pot r < closest.length := by
  have := List.length_pos_iff.mpr h
  unfold candidate
  simp only
  split <;> omega

/-- The candidate is the first row up to which the closest distances add up to the drawn amount. -/
theorem candidate_spec (closest : List α) (r : α) (h0 : ∀ a ∈ closest, 0 ≤ a) (hr : r ≤ 1) (hne : closest ≠ []) :
    r * closest.sum ≤ (closest.take (candidate closest closest.sum r + 1)).sum ∧
    ∀ i < candidate closest closest.sum r, (closest.take (i + 1)).sum < r * closest.sum := by
  have hp := List.length_pos_iff.mpr hne
  have hs : 0 ≤ closest.sum := List.sum_nonneg h0
  have hall : r * closest.sum ≤ closest.sum := by nlinarith
  have hlb : lowerBound (Stats.partialSums 0 closest) (r * closest.sum) < closest.length := by
    rw [lowerBound, ← Stats.length_partialSums 0 closest, List.findIdx_lt_length]
    have hk : closest.length - 1 < closest.length := by omega
    refine ⟨_, List.mem_of_getElem? (Stats.getElem?_partialSums 0 closest (closest.length - 1) hk), ?_⟩
    have : closest.length - 1 + 1 = closest.length := by omega
    simp [this, hall]
  have hcand : candidate closest closest.sum r = lowerBound (Stats.partialSums 0 closest) (r * closest.sum) := by
    unfold candidate
    simp only
    rw [if_neg (by omega)]
  rw [hcand]
  constructor
  · have hlt : lowerBound (Stats.partialSums 0 closest) (r * closest.sum) < (Stats.partialSums 0 closest).length := by
      rw [Stats.length_partialSums]; exact hlb
    have h1 := List.findIdx_getElem (w := hlt)
    have h2 := Stats.getElem?_partialSums 0 closest _ hlb
    rw [List.getElem?_eq_getElem hlt] at h2
    simp only [Option.some.injEq, zero_add] at h2
    have h3 : decide (r * closest.sum ≤ (Stats.partialSums 0 closest)[lowerBound (Stats.partialSums 0 closest)
      (r * closest.sum)]) = true := h1
    rw [decide_eq_true_iff, h2] at h3
    exact h3
  · intro i hi
    have h1 := List.not_of_lt_findIdx hi
    have hil : i < closest.length := hi.trans hlb
    have h2 := Stats.getElem?_partialSums 0 closest i hil
    rw [List.getElem?_eq_getElem (by rw [Stats.length_partialSums]; exact hil)] at h2
    simp only [Option.some.injEq, zero_add] at h2
    simpa [h2] using h1

/-- With a positive draw and a positive potential the candidate has a positive distance. -/
theorem candidate_pos (closest : List α) (r : α) (h0 : ∀ a ∈ closest, 0 ≤ a) (hr0 : 0 < r) (hr : r ≤ 1)
    (hs : 0 < closest.sum) : 0 < closest.getD (candidate closest closest.sum r) 0 := by
  have hne : closest ≠ [] := by rintro rfl; simp at hs
  obtain ⟨h1, h2⟩ := candidate_spec closest r h0 hr hne
  have hc := candidate_lt closest closest.sum r hne
  generalize candidate closest closest.sum r = k at *
  have hpos : 0 < r * closest.sum := mul_pos hr0 hs
  rw [List.take_add_one, List.getElem?_eq_getElem hc] at h1
  simp only [Option.toList_some, List.sum_append, List.sum_cons, List.sum_nil, add_zero] at h1
  have h3 : (closest.take k).sum < r * closest.sum := by
    cases k with
    | zero => simpa using hpos
    | succ k => exact h2 k (by omega)
  have : closest.getD k 0 = closest[k] := by simp [hc]
  rw [this]
  linarith

/-- What the loop over the trials has found so far. -/
def TrialInv (X : DMat α) (C : List (List α)) (tried : List Nat) (best : Option (α × Nat × List α)) : Prop :=
  match best with
  | none => tried = []
  | some (p, i, d) => i ∈ tried ∧ ∃ row, X.rows[i]? = some row ∧ d = (X.rows.map fun x => minSqDist x (C ++ [row])) ∧
      p = inertia X.rows (C ++ [row]) ∧
      ∀ k ∈ tried, ∀ row', X.rows[k]? = some row' → inertia X.rows (C ++ [row]) ≤ inertia X.rows (C ++ [row'])

theorem trials_spec (X : DMat α) (hx : X.WF) (C : List (List α)) (hC : C ≠ []) (hne : X.rows ≠ []) (pot : α) (rs : List α)
    (tried : List Nat) (best : Option (α × Nat × List α)) (hb : TrialInv X C tried best) :
    ∃ best', trials X (X.rows.map fun x => minSqDist x C) pot rs best = .ok best' ∧
      TrialInv X C (tried ++ rs.map (candidate (X.rows.map fun x => minSqDist x C) pot)) best' := by
  induction rs generalizing tried best with
  | nil => exact ⟨best, rfl, by simpa using hb⟩
  | cons r rs ih =>
    have hi := candidate_lt (X.rows.map fun x => minSqDist x C) pot r (by simpa using hne)
    rw [List.length_map] at hi
    set i := candidate (X.rows.map fun x => minSqDist x C) pot r with hidef
    have hrow : X.rows[i].length = X.ncols := hx _ (List.getElem_mem hi)
    have hsum : (X.rows.map fun x => minSqDist x (C ++ [X.rows[i]])).sum = inertia X.rows (C ++ [X.rows[i]]) := rfl
    simp only [trials, ← hidef, readAt_of_lt hi, Res.bind_ok, distancesTo_spec X hx _ hrow, keepSmaller_spec _ _ _ hC, hsum]
    have happ : tried ++ (r :: rs).map (candidate (X.rows.map fun x => minSqDist x C) pot) =
        (tried ++ [i]) ++ rs.map (candidate (X.rows.map fun x => minSqDist x C) pot) := by simp [hidef]
    rw [happ]
    split
    · next hlt =>
      refine ih _ _ ⟨by simp, X.rows[i], List.getElem?_eq_getElem hi, rfl, rfl, ?_⟩
      intro k hk row' hrow'
      rcases List.mem_append.mp hk with hk | hk
      · cases best with
        | none => rw [show tried = [] from hb] at hk; simp at hk
        | some b =>
          obtain ⟨p, j, d⟩ := b
          obtain ⟨-, row, -, -, rfl, h5⟩ := hb
          have hlt' : inertia X.rows (C ++ [X.rows[i]]) < inertia X.rows (C ++ [row]) := by simpa using hlt
          exact hlt'.le.trans (h5 k hk row' hrow')
      · rw [List.mem_singleton.mp hk, List.getElem?_eq_getElem hi] at hrow'
        cases hrow'
        exact le_rfl
    · next hlt =>
      cases best with
      | none => simp at hlt
      | some b =>
        obtain ⟨p, j, d⟩ := b
        obtain ⟨h1, row, h2, h3, h4, h5⟩ := hb
        refine ih _ _ ⟨by simp [h1], row, h2, h3, h4, ?_⟩
        intro k hk row' hrow'
        rcases List.mem_append.mp hk with hk | hk
        · exact h5 k hk row' hrow'
        · rw [List.mem_singleton.mp hk, List.getElem?_eq_getElem hi] at hrow'
          cases hrow'
          subst h4
          simpa using hlt

theorem trials_some (X : DMat α) (hx : X.WF) (C : List (List α)) (hC : C ≠ []) (hne : X.rows ≠ []) (pot : α) (rs : List α)
    (hrs : rs ≠ []) : ∃ i row, trials X (X.rows.map fun x => minSqDist x C) pot rs none =
        .ok (some (inertia X.rows (C ++ [row]), i, X.rows.map fun x => minSqDist x (C ++ [row]))) ∧
      X.rows[i]? = some row ∧ i ∈ rs.map (candidate (X.rows.map fun x => minSqDist x C) pot) ∧
      ∀ k ∈ rs.map (candidate (X.rows.map fun x => minSqDist x C) pot), ∀ row', X.rows[k]? = some row' →
        inertia X.rows (C ++ [row]) ≤ inertia X.rows (C ++ [row']) := by
  obtain ⟨best', h1, h2⟩ := trials_spec X hx C hC hne pot rs [] none rfl
  cases best' with
  | none => exact absurd (by simpa [TrialInv] using h2) hrs
  | some b =>
    obtain ⟨p, i, d⟩ := b
    obtain ⟨g1, row, g2, g3, g4, g5⟩ := h2
    subst g3 g4
    exact ⟨i, row, h1, g2, by simpa using g1, by simpa using g5⟩

theorem roulette_unique {w : List α} {r : α} {i j : Nat} (hi : IsRoulettePick w r i) (hj : IsRoulettePick w r j) : i = j := by
  rcases lt_trichotomy i j with h | h | h
  · exact absurd (hj.2.2 i h) (not_lt.mpr hi.2.1)
  · exact h
  · exact absurd (hi.2.2 j h) (not_lt.mpr hj.2.1)

theorem candidate_roulette (closest : List α) (r : α) (h0 : ∀ a ∈ closest, 0 ≤ a) (hr : r ≤ 1) (hne : closest ≠ []) :
    IsRoulettePick closest r (candidate closest closest.sum r) :=
  ⟨candidate_lt closest _ r hne, candidate_spec closest r h0 hr hne⟩

theorem addCenters_spec (X : DMat α) (hx : X.WF) (hne : X.rows ≠ []) (draws : List (List α))
    (hd : ∀ rs ∈ draws, rs ≠ [] ∧ ∀ r ∈ rs, r ≤ 1) (C : List (List α)) (hC : C ≠ []) :
    ∃ D, addCenters X draws (X.rows.map fun x => minSqDist x C) (inertia X.rows C) C =
        .ok (C ++ D, X.rows.map fun x => minSqDist x (C ++ D)) ∧ D.length = draws.length ∧
      ∀ t rs, draws[t]? = some rs → ∃ c, D[t]? = some c ∧ GreedyPick X.rows (C ++ D.take t) rs c := by
  induction draws generalizing C with
  | nil => exact ⟨[], by simp [addCenters], rfl, by simp⟩
  | cons rs rest ih =>
    obtain ⟨hrs, hr1⟩ := hd rs (by simp)
    have h0 : ∀ a ∈ X.rows.map fun x => minSqDist x C, 0 ≤ a := by
      intro a ha
      obtain ⟨x, -, rfl⟩ := List.mem_map.mp ha
      exact minSqDist_nonneg x C
    have hpick := fun r (hr : r ∈ rs) => candidate_roulette (X.rows.map fun x => minSqDist x C) r h0 (hr1 r hr)
      (by simpa using hne)
    obtain ⟨i, row, h1, h2, h3, h4⟩ := trials_some X hx C hC hne (X.rows.map fun x => minSqDist x C).sum rs hrs
    obtain ⟨D, e1, e2, e3⟩ := ih (fun q hq => hd q (by simp [hq])) (C ++ [row]) (by simp)
    refine ⟨row :: D, ?_, by simp [e2], ?_⟩
    · have h1' : trials X (X.rows.map fun x => minSqDist x C) (inertia X.rows C) rs none =
        .ok (some (inertia X.rows (C ++ [row]), i, X.rows.map fun x => minSqDist x (C ++ [row]))) := h1
      have hrd : readAt X.rows i = .ok row := (readAt_eq_ok).mpr h2
      simp only [addCenters, h1', Res.bind_ok, hrd, e1, List.append_assoc, List.singleton_append]
    · intro t rs' ht
      cases t with
      | zero =>
        simp only [List.getElem?_cons_zero, Option.some.injEq] at ht
        subst ht
        refine ⟨row, rfl, ?_, ?_⟩
        · obtain ⟨r, hr, rfl⟩ := List.mem_map.mp h3
          exact ⟨r, hr, _, by simpa using hpick r hr, h2⟩
        · intro r hr k row' hk hrow'
          simp only [List.take_zero, List.append_nil] at hk ⊢
          rw [roulette_unique hk (hpick r hr)] at hrow'
          exact h4 _ (List.mem_map.mpr ⟨r, hr, rfl⟩) row' hrow'
      | succ t =>
        simp only [List.getElem?_cons_succ] at ht ⊢
        obtain ⟨c, g1, g2⟩ := e3 t rs' ht
        exact ⟨c, g1, by simpa [List.append_assoc] using g2⟩

theorem plusPlus_spec (X : DMat α) (hx : X.WF) (first : Nat) (x₀ : List α) (hf : X.rows[first]? = some x₀)
    (draws : List (List α)) (hd : ∀ rs ∈ draws, rs ≠ [] ∧ ∀ r ∈ rs, r ≤ 1) :
    ∃ D, plusPlus first draws X = .ok (x₀ :: D, X.rows.map fun x => minSqDist x (x₀ :: D)) ∧ D.length = draws.length ∧
      ∀ t rs, draws[t]? = some rs → ∃ c, D[t]? = some c ∧ GreedyPick X.rows (x₀ :: D.take t) rs c := by
  have hne : X.rows ≠ [] := by intro h; rw [h] at hf; simp at hf
  have hrd : readAt X.rows first = .ok x₀ := (readAt_eq_ok).mpr hf
  have hw : x₀.length = X.ncols := hx _ (List.mem_of_getElem? hf)
  obtain ⟨D, h1, h2, h3⟩ := addCenters_spec X hx hne draws hd [x₀] (by simp)
  refine ⟨D, ?_, h2, h3⟩
  simp only [plusPlus, hrd, Res.bind_ok, distancesTo_spec X hx _ hw]
  exact h1

theorem eq_of_sqDist_zero (x c : List α) (h : x.length = c.length) (h0 : sqDist x c = 0) : x = c := by
  induction x generalizing c with
  | nil => rw [List.length_nil] at h; exact (List.length_eq_zero_iff.mp h.symm).symm
  | cons a x ih =>
    match c, h with
    | b :: c, h =>
      have hs : sqDist (a :: x) (b :: c) = (a - b) ^ 2 + sqDist x c := by simp [sqDist]
      rw [hs] at h0
      have h1 : 0 ≤ (a - b) ^ 2 := by positivity
      have h2 := sqDist_nonneg x c
      have h3 : (a - b) ^ 2 = 0 := by linarith
      have h4 : a = b := sub_eq_zero.mp (pow_eq_zero_iff (two_ne_zero) |>.mp h3)
      rw [h4, ih c (by simpa using h) (by linarith)]

theorem sqDist_self (x : List α) : sqDist x x = 0 := by
  induction x with
  | nil => rfl
  | cons a x ih =>
    have : sqDist (a :: x) (a :: x) = (a - a) ^ 2 + sqDist x x := by simp [sqDist]
    rw [this, ih]; simp

theorem mem_iff_withLabel {rows : List (List α)} {labels : List Nat} (hl : labels.length = rows.length) (j : Nat) :
    j ∈ labels ↔ withLabel rows labels j ≠ [] := by
  unfold withLabel
  induction rows generalizing labels with
  | nil =>
    rw [List.length_nil] at hl
    simp [List.length_eq_zero_iff.mp hl]
  | cons r rs ih =>
    match labels, hl with
    | k :: ls, hl =>
      have := ih (labels := ls) (by simpa using hl)
      by_cases hk : k = j
      · simp [hk]
      · have hk' : ¬ j = k := fun h => hk h.symm
        simpa [hk, hk'] using this

/-- The within-cluster sum of squares of a labelling. -/
def within (d k : Nat) (rows : List (List α)) (labels : List Nat) : α :=
  ∑ j ∈ Finset.range k, ((withLabel rows labels j).map fun p => sqDist p (centreOf d (withLabel rows labels j))).sum

/-- Inertia before an iteration: within-cluster sum of squares of the labelling plus the weighted squared moves. -/
theorem inertia_split (X : DMat α) (hx : X.WF) (C C' : List (List α)) (labels : List Nat)
    (hw : ∀ r ∈ C, r.length = X.ncols) (hl : labels.length = X.rows.length)
    (h2 : List.Forall₂ (fun x j => IsFirstMin (C.map (sqDist x)) j) X.rows labels)
    (hlt : ∀ j ∈ labels, j < C.length) (hlen : C'.length = C.length)
    (hC' : ∀ j, C'[j]? = if j ∈ labels then some (centreOf X.ncols (withLabel X.rows labels j)) else C[j]?) :
    inertia X.rows C = within X.ncols C.length X.rows labels + ∑ j ∈ Finset.range C.length,
        ((withLabel X.rows labels j).length : α) * sqDist (C'.getD j []) (C.getD j []) ∧
    inertia X.rows C' ≤ within X.ncols C.length X.rows labels := by
  have hz : ∀ e ∈ X.rows.zip labels, e.2 < C.length := fun e he => hlt _ (List.of_mem_zip he).2
  have key : ∀ (D : List (List α)) j, (((X.rows.zip labels).filter fun e => e.2 = j).map
      fun e => sqDist e.1 (D.getD e.2 [])).sum = ((withLabel X.rows labels j).map fun p => sqDist p (D.getD j [])).sum := by
    intro D j
    rw [withLabel, List.map_map]
    congr 1
    apply List.map_congr_left
    intro e he
    have : e.2 = j := by simpa using (List.mem_filter.mp he).2
    simp only [Function.comp_apply, this]
  have hD : ∀ j, withLabel X.rows labels j ≠ [] → C'.getD j [] = centreOf X.ncols (withLabel X.rows labels j) := by
    intro j hj
    rw [List.getD_eq_getElem?_getD, hC' j, if_pos ((mem_iff_withLabel hl j).mpr hj)]
    rfl
  have hwid : ∀ j, ∀ p ∈ withLabel X.rows labels j, p.length = X.ncols := by
    intro j p hp
    obtain ⟨e, he, rfl⟩ := List.mem_map.mp hp
    exact hx _ (List.of_mem_zip (List.mem_filter.mp he).1).1
  constructor
  · rw [inertia_eq h2, sum_by_label _ C.length hz, within, ← Finset.sum_add_distrib]
    refine Finset.sum_congr rfl fun j hj => ?_
    have hj' : j < C.length := Finset.mem_range.mp hj
    rw [key]
    by_cases hne : withLabel X.rows labels j = []
    · simp [hne]
    · rw [hD j hne]
      refine parallel_axis X.ncols _ _ (hwid j) ?_ hne
      have : C.getD j [] = C[j] := by simp [hj']
      rw [this]
      exact hw _ (List.getElem_mem hj')
  · refine le_trans (inertia_le X.rows C' labels hl fun j hj => by rw [hlen]; exact hlt j hj) ?_
    rw [sum_by_label _ C.length hz, within]
    refine Finset.sum_le_sum fun j _ => ?_
    rw [key]
    by_cases hne : withLabel X.rows labels j = []
    · simp [hne]
    · rw [hD j hne]

/-- A step after which no inertia is gained leaves the centroids alone. -/
theorem eq_of_no_move (rows C C' : List (List α)) (labels : List Nat) (d : Nat) (hl : labels.length = rows.length)
    (hlen : C'.length = C.length) (hw : ∀ r ∈ C, r.length = d) (hw' : ∀ r ∈ C', r.length = d)
    (hC' : ∀ j, C'[j]? = if j ∈ labels then some (centreOf d (withLabel rows labels j)) else C[j]?)
    (h0 : ∑ j ∈ Finset.range C.length, ((withLabel rows labels j).length : α) * sqDist (C'.getD j []) (C.getD j []) ≤ 0) :
    C' = C := by
  have hnn : ∀ j ∈ Finset.range C.length,
      0 ≤ ((withLabel rows labels j).length : α) * sqDist (C'.getD j []) (C.getD j []) :=
    fun j _ => mul_nonneg (Nat.cast_nonneg _) (sqDist_nonneg _ _)
  have hz := (Finset.sum_eq_zero_iff_of_nonneg hnn).mp (le_antisymm h0 (Finset.sum_nonneg hnn))
  apply List.ext_getElem hlen
  intro j h1 h2
  by_cases hj : j ∈ labels
  · have hne := (mem_iff_withLabel hl j).mp hj
    have := hz j (Finset.mem_range.mpr h2)
    have hn : ((withLabel rows labels j).length : α) ≠ 0 := by
      exact_mod_cast (List.length_pos_iff.mpr hne).ne'
    have h3 := (mul_eq_zero.mp this).resolve_left hn
    have e1 : C'.getD j [] = C'[j] := by simp [h1]
    have e2 : C.getD j [] = C[j] := by simp [h2]
    rw [e1, e2] at h3
    exact eq_of_sqDist_zero _ _ (by rw [hw _ (List.getElem_mem h2), hw' _ (List.getElem_mem h1)]) h3
  · have := hC' j
    rw [if_neg hj, List.getElem?_eq_getElem h1, List.getElem?_eq_getElem h2] at this
    exact Option.some.inj this

/-- A sequence of centroids following the iteration reaches a fixed point after at most `K ^ n` steps. -/
theorem converges (checked : Bool) (X : DMat α) (hx : X.WF) (hck : checked = false ∨ X.ncols = 1)
    (C : Nat → List (List α)) (D : Nat → List (List α)) (hC : C 0 ≠ []) (hw : ∀ r ∈ C 0, r.length = X.ncols)
    (hs : ∀ t, iterate checked X (C t) = .ok (C (t + 1), D t)) :
    ∃ t < (C 0).length ^ X.rows.length, C (t + 2) = C (t + 1) ∧ ∀ d ∈ D (t + 1), sqNorm d = 0 := by
  have hinv : ∀ t, (C t).length = (C 0).length ∧ C t ≠ [] ∧ ∀ r ∈ C t, r.length = X.ncols := by
    intro t
    induction t with
    | zero => exact ⟨rfl, hC, hw⟩
    | succ t ih =>
      obtain ⟨-, C', ds, -, h2, h3, h4, -⟩ := iterate_spec checked X hx hck (C t) ih.2.1 ih.2.2
      rw [hs t] at h2
      cases h2
      refine ⟨h3.trans ih.1, ?_, h4⟩
      intro h
      rw [h] at h3
      exact hC (List.length_eq_zero_iff.mp (h3.trans ih.1).symm)
  have hstep : ∀ t, ∃ labels : List Nat, labels.length = X.rows.length ∧ (∀ j ∈ labels, j < (C 0).length) ∧
      (∀ j, (C (t + 1))[j]? = if j ∈ labels then some (centreOf X.ncols (withLabel X.rows labels j)) else (C t)[j]?) ∧
      inertia X.rows (C t) = within X.ncols (C 0).length X.rows labels + ∑ j ∈ Finset.range (C 0).length,
        ((withLabel X.rows labels j).length : α) * sqDist ((C (t + 1)).getD j []) ((C t).getD j []) ∧
      inertia X.rows (C (t + 1)) ≤ within X.ncols (C 0).length X.rows labels ∧
      List.Forall₂ (fun c d => sqNorm d = sqDist ((C (t + 1)).getD c []) ((C t).getD c [])) (Impurity.keys labels) (D t) := by
    intro t
    obtain ⟨l0, ln, lw⟩ := hinv t
    obtain ⟨labels, C', ds, h1, h2, h3, h4, h5, h6, -⟩ := iterate_spec checked X hx hck (C t) ln lw
    obtain ⟨labels', g1, g2⟩ := predict_spec X hx (C t) ln lw
    rw [hs t] at h2
    cases h2
    rw [h1] at g1
    cases g1
    have hlt : ∀ j ∈ labels, j < (C t).length := by
      intro j hj
      obtain ⟨i, hi, rfl⟩ := List.mem_iff_getElem.mp hj
      have hi' : i < X.rows.length := by rw [g2.length_eq]; exact hi
      exact label_lt (List.forall₂_iff_get.mp g2 |>.2 i hi' hi)
    have := inertia_split X hx (C t) (C (t + 1)) labels lw g2.length_eq.symm g2 hlt h3 h5
    rw [l0] at this
    exact ⟨labels, g2.length_eq.symm, by rw [← l0]; exact hlt, h5, this.1, this.2, h6⟩
  choose L hL1 hL2 hL3 hL4 hL5 hL6 using hstep
  have hJ : ∀ t, within X.ncols (C 0).length X.rows (L (t + 1)) ≤ within X.ncols (C 0).length X.rows (L t) := by
    intro t
    have h1 := hL4 (t + 1)
    have h2 := hL5 t
    have h3 : 0 ≤ ∑ j ∈ Finset.range (C 0).length, ((withLabel X.rows (L (t + 1)) j).length : α) *
        sqDist ((C (t + 1 + 1)).getD j []) ((C (t + 1)).getD j []) :=
      Finset.sum_nonneg fun j _ => mul_nonneg (Nat.cast_nonneg _) (sqDist_nonneg _ _)
    linarith
  have hanti : ∀ s t, s ≤ t → within X.ncols (C 0).length X.rows (L t) ≤ within X.ncols (C 0).length X.rows (L s) := by
    intro s t hst
    induction hst with
    | refl => exact le_rfl
    | step _ ih => exact (hJ _).trans ih
  -- two equal labellings among the first `K ^ n + 1`
  let f : Fin ((C 0).length ^ X.rows.length + 1) → (Fin X.rows.length → Fin (C 0).length) := fun t i =>
    ⟨(L t)[i.1]'(by rw [hL1]; exact i.2), hL2 t _ (List.getElem_mem _)⟩
  obtain ⟨a, b, hab, hfab⟩ : ∃ a b, a ≠ b ∧ f a = f b := by
    have := Fintype.exists_ne_map_eq_of_card_lt f (by simp)
    obtain ⟨a, b, h1, h2⟩ := this
    exact ⟨a, b, h1, h2⟩
  have key : ∀ a b : Fin ((C 0).length ^ X.rows.length + 1), a < b → f a = f b →
      ∃ t < (C 0).length ^ X.rows.length, C (t + 2) = C (t + 1) ∧ ∀ d ∈ D (t + 1), sqNorm d = 0 := by
    intro a b hlt hf
    have hLab : L a = L b := by
      apply List.ext_getElem (by rw [hL1, hL1])
      intro i h1 h2
      have := congrFun hf ⟨i, by rw [← hL1 a]; exact h1⟩
      simpa [f] using this
    have hle : (a : Nat) + 1 ≤ b := hlt
    have hb : (b : Nat) < (C 0).length ^ X.rows.length + 1 := b.2
    have h1 : within X.ncols (C 0).length X.rows (L (a + 1)) = within X.ncols (C 0).length X.rows (L a) := by
      refine le_antisymm (hJ a) ?_
      rw [hLab]
      exact hanti _ _ hle
    have h4 := hL4 (a + 1)
    have h5 := hL5 a
    have heq : C ((a : Nat) + 1 + 1) = C (a + 1) := by
      refine eq_of_no_move X.rows (C (a + 1)) (C (a + 1 + 1)) (L (a + 1)) X.ncols (hL1 _)
        ((hinv _).1.trans (hinv _).1.symm) (hinv _).2.2 (hinv _).2.2 (hL3 _) ?_
      rw [(hinv (a + 1)).1]
      linarith
    refine ⟨a, by omega, heq, ?_⟩
    intro d hd
    have h6 := hL6 (a + 1)
    rw [heq] at h6
    obtain ⟨i, hi, rfl⟩ := List.mem_iff_getElem.mp hd
    have hi' : i < (Impurity.keys (L (a + 1))).length := by rw [h6.length_eq]; exact hi
    have := (List.forall₂_iff_get.mp h6).2 i hi' hi
    simp only [List.get_eq_getElem] at this
    rw [this, sqDist_self]
  rcases lt_or_gt_of_ne hab with h | h
  · exact key a b h hfab
  · exact key b a h hfab.symm

/-- The iteration as a total function. -/
def next (checked : Bool) (X : DMat α) (C : List (List α)) : List (List α) × List (List α) :=
  match iterate checked X C with
  | .ok r => r
  | _ => (C, [])

/-- If the stopping test succeeds at iteration `t`, further iterations do not matter. -/
theorem lloyd_stable (checked : Bool) (stop : List (List α) → Bool) (X : DMat α) (hx : X.WF)
    (hck : checked = false ∨ X.ncols = 1) (t n m : Nat) (C : List (List α)) (hC : C ≠ [])
    (hw : ∀ r ∈ C, r.length = X.ncols) (ht : t < n) (hnm : n ≤ m)
    (hstop : stop (next checked X (((fun c => (next checked X c).1)^[t]) C)).2 = true) :
    lloyd checked stop n X C = lloyd checked stop m X C := by
  induction t generalizing n m C with
  | zero =>
    match n, m, ht, hnm with
    | n + 1, m + 1, _, _ =>
      obtain ⟨labels, C', ds, -, h2, h3, h4, -, -, h7⟩ := iterate_spec checked X hx hck C hC hw
      have : stop ds = true := by simpa [next, h2] using hstop
      simp [lloyd, h2, this]
  | succ t ih =>
    match n, m, ht, hnm with
    | n + 1, m + 1, ht, hnm =>
      obtain ⟨labels, C', ds, -, h2, h3, h4, -, -, h7⟩ := iterate_spec checked X hx hck C hC hw
      have hn : (next checked X C).1 = C' := by simp [next, h2]
      rw [Function.iterate_succ_apply, hn] at hstop
      have := ih n m C' (by
        intro h
        rw [h] at h3
        exact hC (List.length_eq_zero_iff.mp h3.symm)) h4 (by omega) (by omega) hstop
      simp [lloyd, h2, this]

theorem lloyd_max_iter (checked : Bool) (stop : List (List α) → Bool) (hst : ∀ ds, (∀ d ∈ ds, sqNorm d = 0) → stop ds = true)
    (X : DMat α) (hx : X.WF) (hck : checked = false ∨ X.ncols = 1) (C : List (List α)) (hC : C ≠ [])
    (hw : ∀ r ∈ C, r.length = X.ncols) (n : Nat) (hn : C.length ^ X.rows.length + 1 ≤ n) :
    lloyd checked stop n X C = lloyd checked stop (C.length ^ X.rows.length + 1) X C := by
  let S : Nat → List (List α) := fun t => ((fun c => (next checked X c).1)^[t]) C
  have hS : ∀ t, S t ≠ [] ∧ (∀ r ∈ S t, r.length = X.ncols) ∧
      iterate checked X (S t) = .ok (S (t + 1), (next checked X (S t)).2) := by
    intro t
    have hstep : ∀ E : List (List α), E ≠ [] → (∀ r ∈ E, r.length = X.ncols) →
        iterate checked X E = .ok (next checked X E) ∧ (next checked X E).1 ≠ [] ∧
          ∀ r ∈ (next checked X E).1, r.length = X.ncols := by
      intro E hE hwE
      obtain ⟨labels, C', ds, -, h2, h3, h4, -⟩ := iterate_spec checked X hx hck E hE hwE
      simp only [next, h2]
      refine ⟨trivial, ?_, h4⟩
      intro h
      rw [h] at h3
      exact hE (List.length_eq_zero_iff.mp h3.symm)
    have hval : S t ≠ [] ∧ ∀ r ∈ S t, r.length = X.ncols := by
      induction t with
      | zero => exact ⟨hC, hw⟩
      | succ t ih =>
        have : S (t + 1) = (next checked X (S t)).1 := Function.iterate_succ_apply' _ _ _
        rw [this]
        exact (hstep _ ih.1 ih.2).2
    refine ⟨hval.1, hval.2, ?_⟩
    have : S (t + 1) = (next checked X (S t)).1 := Function.iterate_succ_apply' _ _ _
    rw [(hstep _ hval.1 hval.2).1, this]
  obtain ⟨t, ht, -, h2⟩ := converges checked X hx hck S (fun t => (next checked X (S t)).2) hC hw fun t => (hS t).2.2
  exact (lloyd_stable checked stop X hx hck (t + 1) _ n C hC hw (Nat.add_lt_add_right ht 1) hn (hst _ h2)).symm

end OpenML.KMeans
