import Verif.Lemmas.DecisionTree
import Verif.Lemmas.VecOps

/-!
# Lemmas about decision trees: choice of the split and termination
-/

set_option linter.unusedSectionVars false

namespace OpenML.DTree
open Spec

variable {α : Type} [Field α] [LinearOrder α] [IsStrictOrderedRing α] {R : Type} [LinearOrder R]

theorem side_eq (f : Nat) (p : α → Bool) : side f p = fun e : List α × α => e.1[f]?.any p := by
  funext e
  unfold side
  cases e.1[f]? <;> rfl

theorem score_eq (imp : List α → List α → List α → Res R) (X : DMat α) (y : List α) (f : Nat) (t : α) :
    score imp X y f t = imp y (targetsLE X y f t) (targetsGT X y f t) := by
  simp only [score, part, side_eq, targetsLE, targetsGT]

theorem mem_midpoints (l : List α) (t : α) :
    t ∈ midpoints l ↔ ∃ i a b, l[i]? = some a ∧ l[i + 1]? = some b ∧ t = (a + b) / 2 := by
  induction l with
  | nil => simp [midpoints]
  | cons a l ih =>
    cases l with
    | nil => simp [midpoints]
    | cons b l =>
      simp only [midpoints, List.mem_cons, ih]
      constructor
      · rintro (rfl | ⟨i, u, v, h1, h2, h3⟩)
        · exact ⟨0, a, b, rfl, rfl, rfl⟩
        · exact ⟨i + 1, u, v, h1, h2, h3⟩
      · rintro ⟨i, u, v, h1, h2, h3⟩
        cases i with
        | zero =>
          simp at h1 h2
          subst h1 h2
          exact Or.inl h3
        | succ i => exact Or.inr ⟨i, u, v, h1, h2, h3⟩

theorem thresholds_ok (c : List α) (h3 : 3 ≤ c.length) : ∃ ts, thresholds c = .ok ts ∧ ts.Pairwise (· < ·) ∧ ts ≠ [] ∧
    ∀ t, t ∈ ts ↔ ∃ i a b, (c.insertionSort (· ≤ ·))[i]? = some a ∧ (c.insertionSort (· ≤ ·))[i + 1]? = some b ∧
      t = (a + b) / 2 := by
  obtain ⟨r, h1, h2, h4⟩ := KDTree.argsortVec_ok c h3
  have hm : mapRes (readAt c) r = .ok (r.filterMap (c[·]?)) :=
    Lists.mapRes_readAt c r fun i hi => List.mem_range.mp (h2.mem_iff.mp hi)
  have hs : r.filterMap (c[·]?) = c.insertionSort (· ≤ ·) := by
    refine List.Perm.eq_of_pairwise (le := (· ≤ ·)) (fun a b _ _ => le_antisymm) h4 (List.pairwise_insertionSort _ _) ?_
    exact (Lists.gather_perm c r h2).trans (List.perm_insertionSort _ _).symm
  obtain ⟨u1, u2⟩ := VecOps.stdUnique_sorted _ (VecOps.stdSort_sorted (midpoints (c.insertionSort (· ≤ ·))))
  have hmem : ∀ t, t ∈ VecOps.stdUnique (VecOps.stdSort (midpoints (c.insertionSort (· ≤ ·)))) ↔ _ := fun t =>
    (u2 t).trans (VecOps.mem_stdSort.trans (mem_midpoints _ t))
  refine ⟨VecOps.stdUnique (VecOps.stdSort (midpoints (c.insertionSort (· ≤ ·)))), ?_, u1, ?_, hmem⟩
  · simp only [thresholds, h1, Res.bind_ok, hm, hs]
  · intro h0
    have hl : (c.insertionSort (· ≤ ·)).length = c.length := List.length_insertionSort _ _
    have := (hmem (((c.insertionSort (· ≤ ·))[0] + (c.insertionSort (· ≤ ·))[1]) / 2)).mpr
      ⟨0, _, _, List.getElem?_eq_getElem (by omega), List.getElem?_eq_getElem (by omega), rfl⟩
    rw [h0] at this
    simp at this

/-- Nodes with one or two samples: reading the order returned by `argsort` goes out of bounds. -/
theorem thresholds_small (c : List α) (h : c.length = 1 ∨ c.length = 2) : thresholds c = .ub := by
  rcases h with h | h
  · simp only [thresholds, KDTree.argsortVec_one c h, Res.bind_ok]
    rw [Lists.mapRes_readAt_ub c 1 [] (by omega)]
    rfl
  · simp only [thresholds, KDTree.argsortVec_two c h, Res.bind_ub]

section
variable (imp : List α → List α → List α → Res R) (X : DMat α) (hx : X.WF) (y : List α) (hy : y.length = X.nrows)
include hx hy

theorem tryThresholds_total (hi : ∀ l r, ∃ v, imp y l r = .ok v) (f : Nat) (hf : f < X.ncols) (ts : List α) (b : Best α R) :
    ∃ b', tryThresholds imp X y f ts b = .ok b' := by
  induction ts generalizing b with
  | nil => exact ⟨b, rfl⟩
  | cons t ts ih =>
    rw [tryThresholds_cons imp X hx y hy f hf]
    obtain ⟨v, hv⟩ := hi ((part X y f fun a => decide (a ≤ t)).map Prod.snd) ((part X y f fun a => decide (t < a)).map Prod.snd)
    rw [score, hv, Res.bind_ok]
    exact ih _

theorem tryFeatures_total (hi : ∀ l r, ∃ v, imp y l r = .ok v) (h3 : 3 ≤ X.nrows) (fs : List Nat) (hfs : ∀ f ∈ fs, f < X.ncols)
    (b : Best α R) : ∃ b', tryFeatures imp X y fs b = .ok b' := by
  induction fs generalizing b with
  | nil => exact ⟨b, rfl⟩
  | cons f fs ih =>
    have hf := hfs f (by simp)
    obtain ⟨ts, h1, -⟩ := thresholds_ok (X.col f) (by rw [DMat.length_col hx hf]; exact h3)
    obtain ⟨b1, h2⟩ := tryThresholds_total imp X hx y hy hi f hf ts b
    simp only [tryFeatures, h1, Res.bind_ok, h2]
    exact ih (fun g hg => hfs g (by simp [hg])) b1

theorem bestSplit_total (hi : ∀ l r, ∃ v, imp y l r = .ok v) (h3 : 3 ≤ X.nrows) (start : R) :
    ∃ b, bestSplit start imp X y = .ok b :=
  tryFeatures_total imp X hx y hy hi h3 _ (fun _ h => List.mem_range.mp h) _

/-- `Res` values that are neither an exception nor divergence. -/
def OkOrUb {β : Type} (r : Res β) : Prop := (∃ b, r = .ok b) ∨ r = .ub

theorem tryThresholds_okOrUb (hi : ∀ l r, OkOrUb (imp y l r)) (f : Nat) (hf : f < X.ncols) (ts : List α) (b : Best α R) :
    OkOrUb (tryThresholds imp X y f ts b) := by
  induction ts generalizing b with
  | nil => exact Or.inl ⟨b, rfl⟩
  | cons t ts ih =>
    rw [tryThresholds_cons imp X hx y hy f hf]
    rcases hi ((part X y f fun a => decide (a ≤ t)).map Prod.snd) ((part X y f fun a => decide (t < a)).map Prod.snd) with
      ⟨v, hv⟩ | hv
    · rw [score, hv, Res.bind_ok]
      exact ih _
    · rw [score, hv]
      exact Or.inr rfl

theorem tryFeatures_okOrUb (hi : ∀ l r, OkOrUb (imp y l r)) (h3 : 3 ≤ X.nrows) (fs : List Nat) (hfs : ∀ f ∈ fs, f < X.ncols)
    (b : Best α R) : OkOrUb (tryFeatures imp X y fs b) := by
  induction fs generalizing b with
  | nil => exact Or.inl ⟨b, rfl⟩
  | cons f fs ih =>
    have hf := hfs f (by simp)
    obtain ⟨ts, h1, -⟩ := thresholds_ok (X.col f) (by rw [DMat.length_col hx hf]; exact h3)
    simp only [tryFeatures, h1, Res.bind_ok]
    rcases tryThresholds_okOrUb imp X hx y hy hi f hf ts b with ⟨b1, h2⟩ | h2
    · rw [h2, Res.bind_ok]
      exact ih (fun g hg => hfs g (by simp [hg])) b1
    · rw [h2]
      exact Or.inr rfl

/-- The candidate list of `best_split` in lexicographic order. -/
theorem bestSplit_candidates (h3 : 3 ≤ X.nrows) (start : R) (b : Best α R) (h : bestSplit start imp X y = .ok b) :
    ∃ cs : List (Nat × α), (∀ c, c ∈ cs ↔ IsCandidate X c.1 c.2) ∧
      cs.Pairwise (fun c d => c.1 < d.1 ∨ c.1 = d.1 ∧ c.2 < d.2) ∧ Scanned imp X y cs ⟨start, none⟩ b := by
  obtain ⟨tss, h1, h2⟩ := bestSplit_spec imp X hx y hy start b h
  refine ⟨_, ?_, ?_, h2⟩
  · clear h2 h
    intro c
    simp only [List.mem_flatMap, List.mem_map]
    have key : ∀ (fs : List Nat) (tss : List (List α)), (∀ f ∈ fs, f < X.ncols) →
        List.Forall₂ (fun f ts => thresholds (X.col f) = .ok ts) fs tss →
        ((∃ q, q ∈ fs.zip tss ∧ ∃ a ∈ q.2, (q.1, a) = c) ↔ c.1 ∈ fs ∧ IsCandidate X c.1 c.2) := by
      intro fs tss hfs hft
      induction hft with
      | nil => simp
      | @cons f ts fs tss hf _ ih =>
        have hlt := hfs f (by simp)
        obtain ⟨ts', e1, -, -, e2⟩ := thresholds_ok (X.col f) (by rw [DMat.length_col hx hlt]; exact h3)
        rw [hf] at e1
        cases e1
        have hi := ih fun g hg => hfs g (by simp [hg])
        simp only [List.zip_cons_cons, List.mem_cons]
        constructor
        · rintro ⟨q, rfl | hq, a, ha, rfl⟩
          · exact ⟨Or.inl rfl, hlt, (e2 a).mp ha⟩
          · have := hi.mp ⟨q, hq, a, ha, rfl⟩
            exact ⟨Or.inr this.1, this.2⟩
        · rintro ⟨hc | hc, hcand⟩
          · refine ⟨(f, ts), Or.inl rfl, c.2, ?_, by rw [← hc]⟩
            rw [e2, ← hc]
            exact hcand.2
          · obtain ⟨q, hq, h⟩ := hi.mpr ⟨hc, hcand⟩
            exact ⟨q, Or.inr hq, h⟩
    rw [key _ _ (fun f hf => List.mem_range.mp hf) h1]
    constructor
    · exact fun h => h.2
    · exact fun h => ⟨List.mem_range.mpr h.1, h⟩
  · clear h2 h
    have key : ∀ (fs : List Nat) (tss : List (List α)), (∀ f ∈ fs, f < X.ncols) → fs.Pairwise (· < ·) →
        List.Forall₂ (fun f ts => thresholds (X.col f) = .ok ts) fs tss →
        ((fs.zip tss).flatMap fun q => q.2.map fun t => (q.1, t)).Pairwise
          (fun c d : Nat × α => c.1 < d.1 ∨ c.1 = d.1 ∧ c.2 < d.2) := by
      intro fs tss hfs hp hft
      induction hft with
      | nil => simp
      | @cons f ts fs tss hf _ ih =>
        have hlt := hfs f (by simp)
        obtain ⟨ts', e1, e3, -, -⟩ := thresholds_ok (X.col f) (by rw [DMat.length_col hx hlt]; exact h3)
        rw [hf] at e1
        cases e1
        rw [List.pairwise_cons] at hp
        simp only [List.zip_cons_cons, List.flatMap_cons]
        rw [List.pairwise_append]
        refine ⟨?_, ih (fun g hg => hfs g (by simp [hg])) hp.2, ?_⟩
        · rw [List.pairwise_map]
          exact e3.imp fun h => Or.inr ⟨rfl, h⟩
        · intro c hc d hd
          obtain ⟨a, -, rfl⟩ := List.mem_map.mp hc
          simp only [List.mem_flatMap, List.mem_map] at hd
          obtain ⟨q, hq, u, -, rfl⟩ := hd
          exact Or.inl (hp.1 q.1 (List.of_mem_zip hq).1)
    exact key _ _ (fun f hf => List.mem_range.mp hf) List.pairwise_lt_range h1

theorem exists_candidate (h3 : 3 ≤ X.nrows) (f : Nat) (hf : f < X.ncols) : ∃ t, IsCandidate X f t := by
  obtain ⟨ts, -, -, hne, hm⟩ := thresholds_ok (X.col f) (by rw [DMat.length_col hx hf]; exact h3)
  obtain ⟨t, ht⟩ := List.exists_mem_of_ne_nil _ hne
  exact ⟨t, hf, (hm t).mp ht⟩

end

variable {ν : Type}

/-- Fitting returns normally if every node considered for splitting has at least three samples. -/
theorem build_total (A : Algo α ν R) (P : Params R) (hs : 3 ≤ P.minSplit) (hv : ∀ y, ∃ v, A.nodeValue y = .ok v)
    (hi : ∀ y l r, ∃ v, A.impurity y l r = .ok v) (fuel : Nat) (X : DMat α) (hx : X.WF) (y : List α)
    (hy : y.length = X.nrows) (depth : Nat) (hd : P.maxDepth + 2 ≤ fuel + depth) (hd' : depth ≤ P.maxDepth + 1) :
    ∃ T, build A P fuel X y depth = .ok T := by
  induction fuel generalizing X y depth with
  | zero => omega
  | succ fuel ih =>
    obtain ⟨v, hv'⟩ := hv y
    simp only [build, hv', Res.bind_ok]
    split
    · exact ⟨_, rfl⟩
    split
    · exact ⟨_, rfl⟩
    next hms =>
    split
    · exact ⟨_, rfl⟩
    next hmd =>
    obtain ⟨b, hb⟩ := bestSplit_total A.impurity X hx y hy (hi y) (by omega) A.start
    rw [hb, Res.bind_ok]
    split
    · exact ⟨_, rfl⟩
    next f t hft =>
    split
    · exact ⟨_, rfl⟩
    have hf := (bestSplit_lt A.impurity X hx y hy A.start b hb f t hft).1
    simp only [gather_rows X hx y hy f hf, gather_targets X hx y hy f hf, Res.bind_ok, List.length_map]
    obtain ⟨l, hl⟩ := ih _ (part_wf X hx y f fun a => decide (a ≤ t)) _ (part_len X y f _) (depth + 1) (by omega) (by omega)
    obtain ⟨r, hr⟩ := ih _ (part_wf X hx y f fun a => decide (t < a)) _ (part_len X y f _) (depth + 1) (by omega) (by omega)
    by_cases h1 : P.minLeaf ≤ (part X y f fun a => decide (a ≤ t)).length <;>
      by_cases h2 : P.minLeaf ≤ (part X y f fun a => decide (t < a)).length <;> simp [h1, h2, hl, hr]

/-- The children of a split node share out its samples. -/
theorem build_children (A : Algo α ν R) (P : Params R) (hm : P.minLeaf = 0) (fuel : Nat) (X : DMat α) (hx : X.WF) (y : List α)
    (hy : y.length = X.nrows) (depth : Nat) (T : Tree α ν) (h : build A P fuel X y depth = .ok T) (p : List Bool)
    (hp : IsSplit T p) : (targetsAt T X.rows y p).Perm
      (targetsAt T X.rows y (p ++ [true]) ++ targetsAt T X.rows y (p ++ [false])) ∧
      (∃ v, valueAt T (p ++ [true]) = some v) ∧ ∃ v, valueAt T (p ++ [false]) = some v := by
  induction fuel generalizing X y depth T p with
  | zero => cases h
  | succ fuel ih =>
    obtain ⟨w, hw, h⟩ := build_cases A P fuel X hx y hy depth T h
    rcases h with rfl | ⟨f, t, l, r, b, rfl, hstop, hms, hd, hb, hs, hdec, hf, hl, hr⟩
    · cases p with
      | nil => simp [IsSplit] at hp
      | cons c p => cases c <;> simp [IsSplit] at hp
    · rw [if_pos (by omega)] at hl hr
      cases p with
      | nil =>
        have hln := build_ne_null A P fuel _ (part_wf X hx y f _) _ (part_len X y f _) _ l hl
        have hrn := build_ne_null A P fuel _ (part_wf X hx y f _) _ (part_len X y f _) _ r hr
        refine ⟨?_, ?_, ?_⟩
        · rw [targets_root _ _ _ (by simp) hy, List.nil_append, List.nil_append, targets_left, targets_right,
            targets_root l _ _ hln (by simp), targets_root r _ _ hrn (by simp), ← List.map_append, part, part]
          have h1 : (X.rows.zip y).map Prod.snd = y := List.map_snd_zip (by rw [hy]; rfl)
          conv_lhs => rw [← h1]
          apply List.Perm.map
          have h2 : (X.rows.zip y).filter (side f fun a => decide (t < a)) =
              (X.rows.zip y).filter (fun e => !side f (fun a => decide (a ≤ t)) e) := by
            apply List.filter_congr
            intro e he
            have hlen : f < e.1.length := by rw [hx _ (List.of_mem_zip he).1]; exact hf
            simp only [side, List.getElem?_eq_getElem hlen, Bool.not_eq_eq_eq_not, ← decide_not, not_le]
          rw [h2]
          exact (List.filter_append_perm _ _).symm
        · cases l with
          | null => exact absurd rfl hln
          | node v _ _ _ => exact ⟨v, rfl⟩
        · cases r with
          | null => exact absurd rfl hrn
          | node v _ _ _ => exact ⟨v, rfl⟩
      | cons c p =>
        cases c with
        | true =>
          rw [List.cons_append, List.cons_append, targets_left, targets_left, targets_left]
          exact ih _ (part_wf X hx y f _) _ (part_len X y f _) _ l hl p hp
        | false =>
          rw [List.cons_append, List.cons_append, targets_right, targets_right, targets_right]
          exact ih _ (part_wf X hx y f _) _ (part_len X y f _) _ r hr p hp

open Classical in
theorem rows_left (X : DMat α) (y : List α) (v : ν) (f : Nat) (t : α) (l r : Tree α ν) (p : List Bool) :
    rowsAt (.node v (some (f, t)) l r) X.rows y (true :: p) =
      rowsAt l ((part X y f fun a => decide (a ≤ t)).map Prod.fst) ((part X y f fun a => decide (a ≤ t)).map Prod.snd) p := by
  unfold rowsAt
  rw [part_zip, part, List.filter_filter]
  congr 1
  apply List.filter_congr
  intro e _
  rw [Bool.eq_iff_iff, decide_eq_true_iff, Bool.and_eq_true, decide_eq_true_iff, and_comm, Follows, side]
  apply and_congr_left'
  cases e.1[f]? <;> simp

open Classical in
theorem rows_right (X : DMat α) (y : List α) (v : ν) (f : Nat) (t : α) (l r : Tree α ν) (p : List Bool) :
    rowsAt (.node v (some (f, t)) l r) X.rows y (false :: p) =
      rowsAt r ((part X y f fun a => decide (t < a)).map Prod.fst) ((part X y f fun a => decide (t < a)).map Prod.snd) p := by
  unfold rowsAt
  rw [part_zip, part, List.filter_filter]
  congr 1
  apply List.filter_congr
  intro e _
  rw [Bool.eq_iff_iff, decide_eq_true_iff, Bool.and_eq_true, decide_eq_true_iff, and_comm, Follows, side]
  apply and_congr_left'
  cases e.1[f]? <;> simp

theorem rows_root (T : Tree α ν) (X : List (List α)) (y : List α) (hT : T ≠ .null) (hy : y.length = X.length) :
    rowsAt T X y [] = X := by
  classical
  unfold rowsAt
  cases T with
  | null => exact absurd rfl hT
  | node v s l r =>
    rw [List.filter_eq_self.mpr (fun e _ => decide_eq_true_iff.mpr (by simp [Follows])), List.map_fst_zip (by omega)]

/-- What `build_tree` does at every node of the tree it returns, in terms of the samples that reach the node. -/
theorem build_node (A : Algo α ν R) (P : Params R) (fuel : Nat) (X : DMat α) (hx : X.WF) (y : List α)
    (hy : y.length = X.nrows) (depth : Nat) (T : Tree α ν) (h : build A P fuel X y depth = .ok T) (p : List Bool)
    (s : Option (Nat × α)) (hs : splitAt T p = some s) :
    ∃ fuel' S, build A P (fuel' + 1) ⟨X.ncols, rowsAt T X.rows y p⟩ (targetsAt T X.rows y p) (depth + p.length) = .ok S ∧
      splitAt S [] = some s ∧ DMat.WF ⟨X.ncols, rowsAt T X.rows y p⟩ ∧
      (targetsAt T X.rows y p).length = (rowsAt T X.rows y p).length := by
  induction fuel generalizing X y depth T p with
  | zero => cases h
  | succ fuel ih =>
    cases p with
    | nil =>
      have hne := build_ne_null A P _ X hx y hy depth T h
      rw [targets_root T _ _ hne hy, rows_root T _ _ hne hy]
      exact ⟨fuel, T, h, hs, hx, hy⟩
    | cons c p =>
      obtain ⟨w, hw, h⟩ := build_cases A P fuel X hx y hy depth T h
      rcases h with rfl | ⟨f, t, l, r, b, rfl, hstop, hms, hd, hb, hs', hdec, hf, hl, hr⟩
      · cases c <;> simp [splitAt] at hs
      · have key : ∀ (q : α → Bool) (S : Tree α ν),
            (if P.minLeaf ≤ (part X y f q).length then
              build A P fuel ⟨X.ncols, (part X y f q).map Prod.fst⟩ ((part X y f q).map Prod.snd) (depth + 1) = .ok S
              else S = .null) → splitAt S p = some s → ∃ fuel' S', build A P (fuel' + 1)
              ⟨X.ncols, rowsAt S ((part X y f q).map Prod.fst) ((part X y f q).map Prod.snd) p⟩
              (targetsAt S ((part X y f q).map Prod.fst) ((part X y f q).map Prod.snd) p) (depth + 1 + p.length) = .ok S' ∧
              splitAt S' [] = some s ∧
              DMat.WF ⟨X.ncols, rowsAt S ((part X y f q).map Prod.fst) ((part X y f q).map Prod.snd) p⟩ ∧
              (targetsAt S ((part X y f q).map Prod.fst) ((part X y f q).map Prod.snd) p).length =
                (rowsAt S ((part X y f q).map Prod.fst) ((part X y f q).map Prod.snd) p).length := by
          intro q S hS hsp
          split at hS
          · exact ih ⟨X.ncols, (part X y f q).map Prod.fst⟩ (part_wf X hx y f q) _ (part_len X y f q) _ S hS p hsp
          · subst hS
            simp [splitAt] at hsp
        have hlen : depth + (c :: p).length = depth + 1 + p.length := by simp; omega
        rw [hlen]
        cases c with
        | true => rw [targets_left, rows_left]; exact key _ l hl hs
        | false => rw [targets_right, rows_right]; exact key _ r hr hs

end OpenML.DTree
