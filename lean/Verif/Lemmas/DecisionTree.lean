import Verif.Spec.DecisionTree
import Verif.Lemmas.DMat
import Verif.Lemmas.KDSort
import Verif.Lemmas.Impurity
import Verif.Lemmas.Stats
import Verif.Props.Data

/-!
# Lemmas about decision trees
-/

set_option linter.unusedSectionVars false

namespace OpenML.DTree
open Spec

variable {α : Type} [Field α] [LinearOrder α] [IsStrictOrderedRing α]

/-- The sample lies on the chosen side: its feature `f` exists and satisfies `p`. -/
def side (f : Nat) (p : α → Bool) (e : List α × α) : Bool :=
  match e.1[f]? with
  | some a => p a
  | none => false

theorem mapRes_readAt_cons {β : Type} (pre : List β) (b : β) (L : List β) (is : List Nat) (bs : List β)
    (h : mapRes (readAt (pre ++ b :: L)) is = .ok bs) : mapRes (readAt (pre ++ b :: L)) (pre.length :: is) = .ok (b :: bs) := by
  simp [mapRes, h, readAt]

theorem gather_where {β : Type} (c : List α) (pre L : List β) (h : c.length = L.length) :
    mapRes (readAt (pre ++ L)) (MatOps.whereFrom c pre.length) =
      .ok (((L.zip c).filter fun e => decide (e.2 ≠ 0)).map Prod.fst) := by
  induction c generalizing pre L with
  | nil =>
    cases L with
    | nil => rfl
    | cons b L => simp at h
  | cons a c ih =>
    match L, h with
    | b :: L, h =>
      have hi := ih (pre ++ [b]) L (by simpa using h)
      simp only [List.append_assoc, List.singleton_append, List.length_append, List.length_singleton] at hi
      simp only [MatOps.whereFrom]
      split
      · next ha => rw [mapRes_readAt_cons pre b L _ _ hi]; simp [ha]
      · next ha => rw [hi]; simp at ha; simp [ha]

theorem gather_selected {β : Type} (L : List β) (c : List α) (p : α → Bool) (h : c.length = L.length) :
    mapRes (readAt L) (selected c p) = .ok (((L.zip c).filter fun e => p e.2).map Prod.fst) := by
  have := gather_where (c.map fun a => if p a then (1 : α) else 0) [] L (by simpa using h)
  simp only [List.nil_append, List.length_nil] at this
  rw [selected, MatOps.where', this]
  congr 1
  clear this h
  induction L generalizing c with
  | nil => simp
  | cons b L ih =>
    cases c with
    | nil => simp
    | cons a c =>
      have := ih c
      by_cases hp : p a = true <;> simp_all

theorem zip_col_fst (rows : List (List α)) (y : List α) (f : Nat) (p : α → Bool) (hy : y.length = rows.length)
    (hf : ∀ r ∈ rows, f < r.length) :
    ((rows.zip (rows.filterMap (·[f]?))).filter fun e => p e.2).map Prod.fst = ((rows.zip y).filter (side f p)).map Prod.fst := by
  induction rows generalizing y with
  | nil => simp
  | cons r rs ih =>
    match y, hy with
    | b :: y, hy =>
      have h1 := hf r (by simp)
      have hi := ih y (by simpa using hy) fun q hq => hf q (by simp [hq])
      simp only [List.filterMap_cons, List.getElem?_eq_getElem h1, List.zip_cons_cons, List.filter_cons, side]
      by_cases hp : p r[f] = true
      · simp only [hp, if_true, List.map_cons]; rw [hi]
      · simp only [hp]; exact hi

theorem zip_col_snd (rows : List (List α)) (y : List α) (f : Nat) (p : α → Bool) (hy : y.length = rows.length)
    (hf : ∀ r ∈ rows, f < r.length) :
    ((y.zip (rows.filterMap (·[f]?))).filter fun e => p e.2).map Prod.fst = ((rows.zip y).filter (side f p)).map Prod.snd := by
  induction rows generalizing y with
  | nil =>
    match y, hy with
    | [], _ => simp
  | cons r rs ih =>
    match y, hy with
    | b :: y, hy =>
      have h1 := hf r (by simp)
      have hi := ih y (by simpa using hy) fun q hq => hf q (by simp [hq])
      simp only [List.filterMap_cons, List.getElem?_eq_getElem h1, List.zip_cons_cons, List.filter_cons, side]
      by_cases hp : p r[f] = true
      · simp only [hp, if_true, List.map_cons]; rw [hi]
      · simp only [hp]; exact hi

/-- The samples of a node on one side. -/
def part (X : DMat α) (y : List α) (f : Nat) (p : α → Bool) : List (List α × α) := (X.rows.zip y).filter (side f p)

theorem gather_rows (X : DMat α) (hx : X.WF) (y : List α) (hy : y.length = X.nrows) (f : Nat) (hf : f < X.ncols) (p : α → Bool) :
    mapRes (readAt X.rows) (selected (X.col f) p) = .ok ((part X y f p).map Prod.fst) := by
  have hl : (X.col f).length = X.rows.length := DMat.length_col hx hf
  rw [gather_selected X.rows (X.col f) p hl, DMat.col, zip_col_fst X.rows y f p hy fun r hr => by rw [hx r hr]; exact hf]
  rfl

theorem gather_targets (X : DMat α) (hx : X.WF) (y : List α) (hy : y.length = X.nrows) (f : Nat) (hf : f < X.ncols)
    (p : α → Bool) : mapRes (readAt y) (selected (X.col f) p) = .ok ((part X y f p).map Prod.snd) := by
  have hl : (X.col f).length = y.length := by rw [DMat.length_col hx hf, hy]
  rw [gather_selected y (X.col f) p hl, DMat.col, zip_col_snd X.rows y f p hy fun r hr => by rw [hx r hr]; exact hf]
  rfl

theorem divide_gather (rows : List (List α)) (pre y : List α) (f : Nat) (t : α) (hy : y.length = rows.length)
    (hf : ∀ r ∈ rows, f < r.length) : ∃ l r, Data.divideFrom f t rows pre.length = .ok (l, r) ∧
      mapRes (readAt (pre ++ y)) l = .ok (((rows.zip y).filter (side f fun a => decide (a ≤ t))).map Prod.snd) ∧
      mapRes (readAt (pre ++ y)) r = .ok (((rows.zip y).filter (side f fun a => decide (t < a))).map Prod.snd) := by
  induction rows generalizing pre y with
  | nil => exact ⟨[], [], rfl, by simp [mapRes], by simp [mapRes]⟩
  | cons q rs ih =>
    match y, hy with
    | b :: y, hy =>
      have h1 := hf q (by simp)
      obtain ⟨l, r, e1, e2, e3⟩ := ih (pre ++ [b]) y (by simpa using hy) fun q' hq => hf q' (by simp [hq])
      simp only [List.append_assoc, List.singleton_append, List.length_append, List.length_singleton] at e1 e2 e3
      simp only [Data.divideFrom, readAt_of_lt h1, Res.bind_ok, e1, List.zip_cons_cons, List.filter_cons, side,
        List.getElem?_eq_getElem h1]
      by_cases hp : q[f] ≤ t
      · have hn : ¬ t < q[f] := not_lt.mpr hp
        refine ⟨pre.length :: l, r, by simp [hp], ?_, ?_⟩
        · rw [mapRes_readAt_cons pre b y _ _ e2]; simp [hp]
        · rw [e3]; simp [hn]
      · have hn : t < q[f] := not_le.mp hp
        refine ⟨l, pre.length :: r, by simp [hp], ?_, ?_⟩
        · rw [e2]; simp [hp]
        · rw [mapRes_readAt_cons pre b y _ _ e3]; simp [hn]

variable {R : Type} [LinearOrder R]

/-- The criterion for splitting at feature `f` and threshold `t`. -/
def score (imp : List α → List α → List α → Res R) (X : DMat α) (y : List α) (f : Nat) (t : α) : Res R :=
  imp y ((part X y f fun a => decide (a ≤ t)).map Prod.snd) ((part X y f fun a => decide (t < a)).map Prod.snd)

section
variable (imp : List α → List α → List α → Res R) (X : DMat α) (hx : X.WF) (y : List α) (hy : y.length = X.nrows)
include hx hy

theorem tryThresholds_cons (f : Nat) (hf : f < X.ncols) (t : α) (ts : List α) (b : Best α R) :
    tryThresholds imp X y f (t :: ts) b = (do
      let v ← score imp X y f t
      tryThresholds imp X y f ts (if b.impurity < v then ⟨v, some (f, t)⟩ else b)) := by
  obtain ⟨l, r, e1, e2, e3⟩ := divide_gather X.rows [] y f t hy fun r hr => by rw [hx r hr]; exact hf
  simp only [List.nil_append, List.length_nil] at e1 e2 e3
  simp only [tryThresholds, Data.divideOnFeature, e1, Res.bind_ok, e2, e3]
  rfl

/-- Result of scanning candidates in order: every candidate is evaluated, the result is the start value or a candidate better
than the start, the first one to reach the maximum. -/
def Scanned (cands : List (Nat × α)) (b b' : Best α R) : Prop :=
  (∀ c ∈ cands, ∃ v, score imp X y c.1 c.2 = .ok v ∧ v ≤ b'.impurity) ∧ b.impurity ≤ b'.impurity ∧
  (b' = b ∨ ∃ pre c post, cands = pre ++ c :: post ∧ b'.split = some c ∧ score imp X y c.1 c.2 = .ok b'.impurity ∧
    b.impurity < b'.impurity ∧ ∀ d ∈ pre, ∃ v, score imp X y d.1 d.2 = .ok v ∧ v < b'.impurity)

omit hx hy in
theorem Scanned.append {cs ds : List (Nat × α)} {b b' b'' : Best α R} (h1 : Scanned imp X y cs b b')
    (h2 : Scanned imp X y ds b' b'') : Scanned imp X y (cs ++ ds) b b'' := by
  obtain ⟨a1, a2, a3⟩ := h1
  obtain ⟨c1, c2, c3⟩ := h2
  refine ⟨?_, a2.trans c2, ?_⟩
  · intro c hc
    rcases List.mem_append.mp hc with hc | hc
    · obtain ⟨v, h1, h2⟩ := a1 c hc
      exact ⟨v, h1, h2.trans c2⟩
    · exact c1 c hc
  · rcases c3 with rfl | ⟨pre, c, post, e1, e2, e3, e4, e5⟩
    · rcases a3 with rfl | ⟨pre, c, post, e1, e2, e3, e4, e5⟩
      · exact Or.inl rfl
      · exact Or.inr ⟨pre, c, post ++ ds, by simp [e1], e2, e3, e4, e5⟩
    · refine Or.inr ⟨cs ++ pre, c, post, by simp [e1], e2, e3, lt_of_le_of_lt a2 e4, ?_⟩
      intro d hd
      rcases List.mem_append.mp hd with hd | hd
      · obtain ⟨v, h1, h2⟩ := a1 d hd
        exact ⟨v, h1, lt_of_le_of_lt h2 e4⟩
      · exact e5 d hd

theorem tryThresholds_spec (f : Nat) (hf : f < X.ncols) (ts : List α) (b b' : Best α R)
    (h : tryThresholds imp X y f ts b = .ok b') : Scanned imp X y (ts.map fun t => (f, t)) b b' := by
  induction ts generalizing b with
  | nil => cases h; exact ⟨by simp, le_rfl, Or.inl rfl⟩
  | cons t ts ih =>
    rw [tryThresholds_cons imp X hx y hy f hf, Res.bind_eq_ok] at h
    obtain ⟨v, hv, h⟩ := h
    have h2 := ih _ h
    have h1 : Scanned imp X y [(f, t)] b (if b.impurity < v then ⟨v, some (f, t)⟩ else b) := by
      split
      · next hlt =>
        refine ⟨?_, hlt.le, Or.inr ⟨[], (f, t), [], rfl, rfl, hv, hlt, by simp⟩⟩
        intro c hc
        rw [List.mem_singleton.mp hc]
        exact ⟨v, hv, le_rfl⟩
      · next hlt =>
        refine ⟨?_, le_rfl, Or.inl rfl⟩
        intro c hc
        rw [List.mem_singleton.mp hc]
        exact ⟨v, hv, not_lt.mp hlt⟩
    exact h1.append imp X y h2

theorem tryFeatures_spec (fs : List Nat) (hfs : ∀ f ∈ fs, f < X.ncols) (b b' : Best α R)
    (h : tryFeatures imp X y fs b = .ok b') : ∃ tss, List.Forall₂ (fun f ts => thresholds (X.col f) = .ok ts) fs tss ∧
      Scanned imp X y ((fs.zip tss).flatMap fun q => q.2.map fun t => (q.1, t)) b b' := by
  induction fs generalizing b with
  | nil => cases h; exact ⟨[], .nil, by simp, le_rfl, Or.inl rfl⟩
  | cons f fs ih =>
    simp only [tryFeatures, Res.bind_eq_ok] at h
    obtain ⟨ts, h1, b1, h2, h3⟩ := h
    obtain ⟨tss, h4, h5⟩ := ih (fun g hg => hfs g (by simp [hg])) _ h3
    refine ⟨ts :: tss, .cons h1 h4, ?_⟩
    simp only [List.zip_cons_cons, List.flatMap_cons]
    exact (tryThresholds_spec imp X hx y hy f (hfs f (by simp)) ts b b1 h2).append imp X y h5

theorem bestSplit_spec (start : R) (b : Best α R) (h : bestSplit start imp X y = .ok b) :
    ∃ tss, List.Forall₂ (fun f ts => thresholds (X.col f) = .ok ts) (List.range X.ncols) tss ∧
      Scanned imp X y (((List.range X.ncols).zip tss).flatMap fun q => q.2.map fun t => (q.1, t)) ⟨start, none⟩ b :=
  tryFeatures_spec imp X hx y hy _ (fun _ h => List.mem_range.mp h) _ _ h

theorem bestSplit_lt (start : R) (b : Best α R) (h : bestSplit start imp X y = .ok b) (f : Nat) (t : α)
    (hs : b.split = some (f, t)) : f < X.ncols ∧ score imp X y f t = .ok b.impurity ∧ start < b.impurity := by
  obtain ⟨tss, h1, h2, h3, h4⟩ := bestSplit_spec imp X hx y hy start b h
  rcases h4 with rfl | ⟨pre, c, post, e1, e2, e3, e4, e5⟩
  · cases hs
  · rw [hs] at e2
    cases e2
    refine ⟨?_, e3, e4⟩
    have hmem : (f, t) ∈ ((List.range X.ncols).zip tss).flatMap fun q => q.2.map fun t => (q.1, t) := by
      rw [e1]; simp
    simp only [List.mem_flatMap, List.mem_map] at hmem
    obtain ⟨q, hq, u, -, hqu⟩ := hmem
    have := (List.of_mem_zip hq).1
    rw [List.mem_range] at this
    simp only [Prod.mk.injEq] at hqu
    omega

end

variable {ν : Type}

/-- The outcome of `build_tree` on one node. -/
theorem build_cases (A : Algo α ν R) (P : Params R) (fuel : Nat) (X : DMat α) (hx : X.WF) (y : List α)
    (hy : y.length = X.nrows) (depth : Nat) (T : Tree α ν) (h : build A P (fuel + 1) X y depth = .ok T) :
    ∃ v, A.nodeValue y = .ok v ∧ (T = .node v none .null .null ∨ ∃ f t l r b, T = .node v (some (f, t)) l r ∧
      A.stop y = false ∧ P.minSplit ≤ X.nrows ∧ depth ≤ P.maxDepth ∧ bestSplit A.start A.impurity X y = .ok b ∧
      b.split = some (f, t) ∧ P.minDecrease < b.impurity ∧ f < X.ncols ∧
      (if P.minLeaf ≤ (part X y f fun a => decide (a ≤ t)).length then
        build A P fuel ⟨X.ncols, (part X y f fun a => decide (a ≤ t)).map Prod.fst⟩
          ((part X y f fun a => decide (a ≤ t)).map Prod.snd) (depth + 1) = .ok l else l = .null) ∧
      (if P.minLeaf ≤ (part X y f fun a => decide (t < a)).length then
        build A P fuel ⟨X.ncols, (part X y f fun a => decide (t < a)).map Prod.fst⟩
          ((part X y f fun a => decide (t < a)).map Prod.snd) (depth + 1) = .ok r else r = .null)) := by
  simp only [build, Res.bind_eq_ok] at h
  obtain ⟨v, hv, h⟩ := h
  refine ⟨v, hv, ?_⟩
  split at h
  · cases h; exact Or.inl rfl
  next hstop =>
  split at h
  · cases h; exact Or.inl rfl
  next hsplit =>
  split at h
  · cases h; exact Or.inl rfl
  next hdepth =>
  rw [Res.bind_eq_ok] at h
  obtain ⟨b, hb, h⟩ := h
  split at h
  · cases h; exact Or.inl rfl
  next f t hs =>
  split at h
  · cases h; exact Or.inl rfl
  next hdec =>
  right
  have hf := (bestSplit_lt A.impurity X hx y hy A.start b hb f t hs).1
  simp only [gather_rows X hx y hy f hf, gather_targets X hx y hy f hf, Res.bind_ok, List.length_map] at h
  by_cases h1 : P.minLeaf ≤ (part X y f fun a => decide (a ≤ t)).length
  · rw [if_pos h1, Res.bind_eq_ok] at h
    obtain ⟨l, hl, h⟩ := h
    by_cases h2 : P.minLeaf ≤ (part X y f fun a => decide (t < a)).length
    · rw [if_pos h2, Res.bind_eq_ok] at h
      obtain ⟨r, hr, h⟩ := h
      exact ⟨f, t, l, r, b, (Res.ok.inj h).symm, by simpa using hstop, by omega, by omega, hb, hs, not_le.mp hdec, hf,
        by rw [if_pos h1]; exact hl, by rw [if_pos h2]; exact hr⟩
    · rw [if_neg h2] at h
      exact ⟨f, t, l, .null, b, (Res.ok.inj h).symm, by simpa using hstop, by omega, by omega, hb, hs, not_le.mp hdec, hf,
        by rw [if_pos h1]; exact hl, by rw [if_neg h2]⟩
  · rw [if_neg h1] at h
    by_cases h2 : P.minLeaf ≤ (part X y f fun a => decide (t < a)).length
    · rw [if_pos h2, Res.bind_eq_ok] at h
      obtain ⟨r, hr, h⟩ := h
      exact ⟨f, t, .null, r, b, (Res.ok.inj h).symm, by simpa using hstop, by omega, by omega, hb, hs, not_le.mp hdec, hf,
        by rw [if_neg h1], by rw [if_pos h2]; exact hr⟩
    · rw [if_neg h2] at h
      exact ⟨f, t, .null, .null, b, (Res.ok.inj h).symm, by simpa using hstop, by omega, by omega, hb, hs, not_le.mp hdec, hf,
        by rw [if_neg h1], by rw [if_neg h2]⟩

theorem part_wf (X : DMat α) (hx : X.WF) (y : List α) (f : Nat) (p : α → Bool) :
    DMat.WF ⟨X.ncols, (part X y f p).map Prod.fst⟩ := by
  intro r hr
  obtain ⟨e, he, rfl⟩ := List.mem_map.mp hr
  exact hx _ (List.of_mem_zip (List.mem_filter.mp he).1).1

theorem part_len (X : DMat α) (y : List α) (f : Nat) (p : α → Bool) :
    ((part X y f p).map Prod.snd).length = DMat.nrows ⟨X.ncols, (part X y f p).map Prod.fst⟩ := by simp [DMat.nrows]

theorem part_zip (X : DMat α) (y : List α) (f : Nat) (p : α → Bool) :
    ((part X y f p).map Prod.fst).zip ((part X y f p).map Prod.snd) = part X y f p := by
  rw [← List.unzip_fst, ← List.unzip_snd, List.zip_unzip]

open Classical in
theorem targets_left (X : DMat α) (y : List α) (v : ν) (f : Nat) (t : α) (l r : Tree α ν) (p : List Bool) :
    targetsAt (.node v (some (f, t)) l r) X.rows y (true :: p) =
      targetsAt l ((part X y f fun a => decide (a ≤ t)).map Prod.fst) ((part X y f fun a => decide (a ≤ t)).map Prod.snd) p := by
  unfold targetsAt
  rw [part_zip, part, List.filter_filter]
  congr 1
  apply List.filter_congr
  intro e _
  rw [Bool.eq_iff_iff, decide_eq_true_iff, Bool.and_eq_true, decide_eq_true_iff, and_comm, Follows, side]
  apply and_congr_left'
  cases e.1[f]? <;> simp

open Classical in
theorem targets_right (X : DMat α) (y : List α) (v : ν) (f : Nat) (t : α) (l r : Tree α ν) (p : List Bool) :
    targetsAt (.node v (some (f, t)) l r) X.rows y (false :: p) =
      targetsAt r ((part X y f fun a => decide (t < a)).map Prod.fst) ((part X y f fun a => decide (t < a)).map Prod.snd) p := by
  unfold targetsAt
  rw [part_zip, part, List.filter_filter]
  congr 1
  apply List.filter_congr
  intro e _
  rw [Bool.eq_iff_iff, decide_eq_true_iff, Bool.and_eq_true, decide_eq_true_iff, and_comm, Follows, side]
  apply and_congr_left'
  cases e.1[f]? <;> simp

theorem targets_root (T : Tree α ν) (X : List (List α)) (y : List α) (hT : T ≠ .null) (hy : y.length = X.length) :
    targetsAt T X y [] = y := by
  classical
  unfold targetsAt
  cases T with
  | null => exact absurd rfl hT
  | node v s l r =>
    rw [List.filter_eq_self.mpr (fun e _ => decide_eq_true_iff.mpr (by simp [Follows])), List.map_snd_zip (by omega)]

theorem build_ne_null (A : Algo α ν R) (P : Params R) (fuel : Nat) (X : DMat α) (hx : X.WF) (y : List α)
    (hy : y.length = X.nrows) (depth : Nat) (T : Tree α ν) (h : build A P fuel X y depth = .ok T) : T ≠ .null := by
  cases fuel with
  | zero => cases h
  | succ fuel =>
    obtain ⟨v, -, h⟩ := build_cases A P fuel X hx y hy depth T h
    rcases h with rfl | ⟨f, t, l, r, b, rfl, -⟩ <;> simp

/-- Everything the fitted tree satisfies at its nodes. -/
theorem build_inv (A : Algo α ν R) (P : Params R) (fuel : Nat) (X : DMat α) (hx : X.WF) (y : List α)
    (hy : y.length = X.nrows) (depth : Nat) (T : Tree α ν) (h : build A P fuel X y depth = .ok T) (p : List Bool) :
    (∀ v, valueAt T p = some v → A.nodeValue (targetsAt T X.rows y p) = .ok v ∧
      (p ≠ [] → depth + p.length ≤ P.maxDepth + 1 ∧ P.minLeaf ≤ (targetsAt T X.rows y p).length)) ∧
    (IsSplit T p → depth + p.length ≤ P.maxDepth ∧ P.minSplit ≤ (targetsAt T X.rows y p).length) := by
  induction fuel generalizing X y depth T p with
  | zero => cases h
  | succ fuel ih =>
    obtain ⟨w, hw, h⟩ := build_cases A P fuel X hx y hy depth T h
    rcases h with rfl | ⟨f, t, l, r, b, rfl, hstop, hms, hd, hb, hs, hdec, hf, hl, hr⟩
    · cases p with
      | nil =>
        constructor
        · intro v hv
          cases hv
          rw [targets_root _ _ _ (by simp) hy]
          exact ⟨hw, by simp⟩
        · intro h; simp [IsSplit] at h
      | cons c p => cases c <;> simp [valueAt, IsSplit]
    · cases p with
      | nil =>
        rw [targets_root _ _ _ (by simp) hy]
        constructor
        · intro v hv
          cases hv
          exact ⟨hw, by simp⟩
        · intro _
          exact ⟨by simpa using hd, by omega⟩
      | cons c p =>
        have key : ∀ (q : α → Bool) (S : Tree α ν),
            (if P.minLeaf ≤ (part X y f q).length then
              build A P fuel ⟨X.ncols, (part X y f q).map Prod.fst⟩ ((part X y f q).map Prod.snd) (depth + 1) = .ok S
              else S = .null) →
            (∀ v, valueAt S p = some v →
              A.nodeValue (targetsAt S ((part X y f q).map Prod.fst) ((part X y f q).map Prod.snd) p) = .ok v ∧
              depth + 1 + p.length ≤ P.maxDepth + 1 ∧
              P.minLeaf ≤ (targetsAt S ((part X y f q).map Prod.fst) ((part X y f q).map Prod.snd) p).length) ∧
            (IsSplit S p → depth + 1 + p.length ≤ P.maxDepth ∧
              P.minSplit ≤ (targetsAt S ((part X y f q).map Prod.fst) ((part X y f q).map Prod.snd) p).length) := by
          intro q S hS
          split at hS
          · next hm =>
            obtain ⟨i1, i2⟩ := ih ⟨X.ncols, (part X y f q).map Prod.fst⟩ (part_wf X hx y f q) _ (part_len X y f q) _ S hS p
            refine ⟨?_, i2⟩
            intro v hv
            obtain ⟨j1, j2⟩ := i1 v hv
            refine ⟨j1, ?_⟩
            cases p with
            | nil =>
              have hne := build_ne_null A P fuel _ (part_wf X hx y f q) _ (part_len X y f q) _ S hS
              rw [targets_root S _ _ hne (by simp)]
              simpa using ⟨hd, hm⟩
            | cons c' p' => exact j2 (by simp)
          · subst hS
            simp [valueAt, IsSplit]
        cases c with
        | true =>
          rw [targets_left]
          obtain ⟨k1, k2⟩ := key _ l hl
          refine ⟨fun v hv => ?_, fun hsp => ?_⟩
          · obtain ⟨j1, j2, j3⟩ := k1 v hv
            exact ⟨j1, fun _ => ⟨by simp only [List.length_cons]; omega, j3⟩⟩
          · obtain ⟨j1, j2⟩ := k2 hsp
            exact ⟨by simp only [List.length_cons]; omega, j2⟩
        | false =>
          rw [targets_right]
          obtain ⟨k1, k2⟩ := key _ r hr
          refine ⟨fun v hv => ?_, fun hsp => ?_⟩
          · obtain ⟨j1, j2, j3⟩ := k1 v hv
            exact ⟨j1, fun _ => ⟨by simp only [List.length_cons]; omega, j3⟩⟩
          · obtain ⟨j1, j2⟩ := k2 hsp
            exact ⟨by simp only [List.length_cons]; omega, j2⟩

/-- The descent follows a path and stops at its end. -/
theorem route_path (x : List α) (T : Tree α ν) (v : ν) (h : route x T = .ok v) :
    ∃ p, valueAt T p = some v ∧ Follows x T p ∧ StopsAt T p := by
  induction T with
  | null => cases h
  | node w s l r ihl ihr =>
    cases l with
    | null =>
      simp only [route] at h
      cases h
      exact ⟨[], rfl, trivial, rfl⟩
    | node w' s' l' r' =>
      cases s with
      | none => simp [route] at h
      | some ft =>
        obtain ⟨f, t⟩ := ft
        simp only [route, Res.bind_eq_ok] at h
        obtain ⟨a, ha, h⟩ := h
        have ha' : x[f]? = some a := by
          unfold readAt at ha
          cases hx : x[f]? with
          | none => rw [hx] at ha; cases ha
          | some b => rw [hx] at ha; cases ha; rfl
        split at h
        · next hat =>
          obtain ⟨p, h1, h2, h3⟩ := ihl h
          exact ⟨true :: p, h1, ⟨⟨a, ha', hat⟩, h2⟩, h3⟩
        · next hat =>
          obtain ⟨p, h1, h2, h3⟩ := ihr h
          exact ⟨false :: p, h1, ⟨⟨a, ha', not_le.mp hat⟩, h2⟩, h3⟩

/-- With `min_samples_leaf = 0` the descent always succeeds. -/
theorem route_total (A : Algo α ν R) (P : Params R) (hm : P.minLeaf = 0) (fuel : Nat) (X : DMat α) (hx : X.WF) (y : List α)
    (hy : y.length = X.nrows) (depth : Nat) (T : Tree α ν) (h : build A P fuel X y depth = .ok T) (x : List α)
    (hxl : x.length = X.ncols) : ∃ v, route x T = .ok v := by
  induction fuel generalizing X y depth T with
  | zero => cases h
  | succ fuel ih =>
    obtain ⟨w, hw, h⟩ := build_cases A P fuel X hx y hy depth T h
    rcases h with rfl | ⟨f, t, l, r, b, rfl, hstop, hms, hd, hb, hs, hdec, hf, hl, hr⟩
    · exact ⟨w, rfl⟩
    · rw [if_pos (by omega)] at hl hr
      have hl' := ih _ (part_wf X hx y f _) _ (part_len X y f _) _ l hl hxl
      have hr' := ih _ (part_wf X hx y f _) _ (part_len X y f _) _ r hr hxl
      have hne := build_ne_null A P fuel _ (part_wf X hx y f _) _ (part_len X y f _) _ l hl
      cases l with
      | null => exact absurd rfl hne
      | node w' s' l' r' =>
        simp only [route, readAt_of_lt (show f < x.length by omega), Res.bind_ok]
        split
        · exact hl'
        · exact hr'

/-- Two samples following the same path to a stopping node get the same value. -/
theorem route_of_path (x : List α) (T : Tree α ν) (p : List Bool) (v : ν) (h1 : valueAt T p = some v) (h2 : Follows x T p)
    (h3 : StopsAt T p) (hl : ∀ q, q <+: p → q ≠ p → ¬ StopsAt T q) : route x T = .ok v := by
  induction T generalizing p with
  | null => cases p <;> cases h1
  | node w s l r ihl ihr =>
    cases p with
    | nil =>
      cases h1
      simp only [StopsAt] at h3
      subst h3
      rfl
    | cons c p =>
      have h0 := hl [] (List.nil_prefix) (by simp)
      simp only [StopsAt] at h0
      have hsub : ∀ q, q <+: p → q ≠ p → ¬ StopsAt (Tree.node w s l r) (c :: q) := fun q hq hqp =>
        hl (c :: q) (List.cons_prefix_cons.mpr ⟨rfl, hq⟩) (by simpa using hqp)
      cases s with
      | none => cases c <;> exact absurd h2 (by simp [Follows])
      | some ft =>
        obtain ⟨f, t⟩ := ft
        cases l with
        | null => exact absurd rfl h0
        | node w' s' l' r' =>
          cases c with
          | true =>
            obtain ⟨⟨a, ha, hat⟩, h2⟩ := h2
            simp only [route, readAt, ha, Res.bind_ok, hat, if_true]
            exact ihl p h1 h2 h3 hsub
          | false =>
            obtain ⟨⟨a, ha, hat⟩, h2⟩ := h2
            simp only [route, readAt, ha, Res.bind_ok, not_le.mpr hat, if_false]
            exact ihr p h1 h2 h3 hsub

theorem stdevStop_real (m : ℝ) (y : List ℝ) (h : y ≠ []) : stdevStop m y = true ↔
    Real.sqrt (Real.sqrt ((y.map fun a => (a - y.sum / (y.length : ℝ)) ^ 2).sum) / (y.length : ℝ)) ≤ m := by
  have hp := Stats.length_pos_cast h
  rw [stdevStop, decide_eq_true_iff, Real.sqrt_le_iff, div_le_iff₀ hp, Real.sqrt_le_iff]
  constructor
  · rintro ⟨h1, h2⟩
    exact ⟨h1, by positivity, by rw [sq m]; exact h2⟩
  · rintro ⟨h1, -, h2⟩
    exact ⟨h1, by rw [sq m] at h2; exact h2⟩

end OpenML.DTree
