import Verif.Model.Neighbors
import Verif.Lemmas.MapRes
import Verif.Props.KDTree
import Verif.Props.Stats
import Mathlib.Data.List.GetD

/-!
# Predictions of `KNearestNeighbors` (C99)
-/

set_option linter.unusedSectionVars false

namespace OpenML

open Spec Neighbors

variable {α : Type} [Field α] [LinearOrder α] [IsStrictOrderedRing α]

theorem pickLabel_eq (table : List (α × Nat)) (h : ∀ e ∈ table, e.2 < 2 ^ 64) : pickLabel table = -1 := by
  suffices H : table.foldl (fun best kv => if kv.2 > best.2 then kv else best) ((-1 : α), 2 ^ 64 - 1) = (-1, 2 ^ 64 - 1) by
    rw [pickLabel, H]
  induction table with
  | nil => rfl
  | cons e t ih =>
    have he := h e (by simp)
    rw [List.foldl_cons, if_neg (by dsimp only; omega)]
    exact ih fun e he => h e (by simp [he])

theorem frequency_lt (l : List α) : ∀ e ∈ frequency l, e.2 < 2 ^ 64 := by
  intro e he
  obtain ⟨a, _, rfl⟩ := List.mem_map.mp he
  exact Nat.mod_lt _ (by norm_num)

theorem lookupDist_ok (f : List α → α) (y q : List α) (rs : List (List α)) (hr : ∀ r ∈ rs, r.length = q.length) (i : Nat)
    (hy : i + rs.length ≤ y.length) : ∃ l, lookupDist (some f) y q rs i = .ok l ∧ l.length = rs.length := by
  induction rs generalizing i with
  | nil => exact ⟨[], rfl, rfl⟩
  | cons r rs ih =>
    obtain ⟨l, hl, hll⟩ := ih (fun r hr' => hr r (by simp [hr'])) (i + 1) (by simp at hy; omega)
    have hi : i < y.length := by simp at hy; omega
    refine ⟨(f (List.zipWith (· - ·) r q), y[i]) :: l, ?_, by simp [hll]⟩
    rw [lookupDist, readAt_of_lt hi, Res.bind_ok]
    dsimp only
    rw [if_pos (hr r (by simp)), Res.bind_ok, hl, Res.bind_ok]

/-- C99: with solver "brute" every prediction is -1, for all training samples, labels and queries, since the counter of the best
label starts with the largest number. -/
theorem C99_brute (f : List α → α) (iter : List (α × Nat) → List (α × Nat)) (hiter : ∀ t, (iter t).Perm t) (k : Nat) (X : DMat α)
    (hX : X.WF) (y : List α) (hy : y.length = X.nrows) (hk : k ≤ X.nrows) (queries : List (List α))
    (hq : ∀ q ∈ queries, q.length = X.ncols) :
    predictBrute (some f) iter k X y queries = .ok (List.replicate queries.length (-1)) := by
  have hone : ∀ q ∈ queries, bruteForce (some f) iter k X y q = .ok (-1) := by
    intro q hqm
    obtain ⟨l, hl, hll⟩ := lookupDist_ok f y q X.rows (fun r hr => (hX r hr).trans (hq q hqm).symm) 0 (by
      rw [Nat.zero_add, hy]; exact le_refl _)
    rw [bruteForce, hl, Res.bind_ok, firstLabels, if_pos (by rw [List.length_mergeSort, hll]; exact hk), Res.bind_ok, pickLabel_eq]
    exact fun e he => frequency_lt _ e ((hiter _).mem_iff.mp he)
  rw [predictBrute, mapRes_ok_iff]
  clear hq
  induction queries with
  | nil => exact .nil
  | cons q qs ih => exact .cons (hone q (by simp)) (ih fun q hq => hone q (by simp [hq]))

/-- Example for C99: the nearest sample has label 7. -/
example : predictBrute (some norm1) id 1 ⟨1, [[(0 : ℚ)], [5]]⟩ [7, 8] [[1], [6]] = .ok [-1, -1] :=
  C99_brute norm1 id (fun t => List.Perm.refl t) 1 ⟨1, [[0], [5]]⟩ (by decide) [7, 8] rfl (by decide) [[1], [6]] (by decide)

/-- C99: more neighbours than samples throw `out_of_range`, other metric names `invalid_argument`. -/
theorem C99_brute_throws (iter : List (α × Nat) → List (α × Nat)) (k : Nat) (X : DMat α) (hX : X.WF) (y : List α)
    (hy : y.length = X.nrows) (q : List α) (hq : q.length = X.ncols) (qs : List (List α)) :
    (∀ f, X.nrows < k → predictBrute (some f) iter k X y (q :: qs) = .throw .outOfRange) ∧
    (0 < X.nrows → predictBrute none iter k X y (q :: qs) = .throw .invalidArgument) := by
  constructor
  · intro f hk
    obtain ⟨l, hl, hll⟩ := lookupDist_ok f y q X.rows (fun r hr => (hX r hr).trans hq.symm) 0 (by
      rw [Nat.zero_add, hy]; exact le_refl _)
    rw [predictBrute, mapRes, bruteForce, hl, Res.bind_ok, firstLabels, if_neg, Res.bind_throw, Res.bind_throw]
    rw [List.length_mergeSort, hll]
    exact not_le.mpr hk
  · intro h0
    obtain ⟨r, rs, hr⟩ := List.exists_cons_of_length_pos (show 0 < X.rows.length from h0)
    have hi : 0 < y.length := by rw [hy]; exact h0
    rw [predictBrute, mapRes, bruteForce, hr, lookupDist, readAt_of_lt hi, Res.bind_ok]
    rfl

section Tree

variable (x : DMat α) (hx : x.WF) (leafSize : Nat) (nodes : List (KDTree.Node α)) (hb : KDTree.build x leafSize = .ok nodes)
  (hthree : ∀ p ∈ kdLeaves nodes, 3 ≤ p.1.length)

include hx hb hthree

/-- The labels of the neighbours of all queries. -/
theorem tree_labels {nrm : List α → α} (hn : MonotoneNorm nrm) {Q : PQueue (WithTop α × Nat)} (hQ : Q.Lawful Prod.fst)
    (hw : FirstFeatureWidest x.ncols x.rows) (queries : List (List α)) (hq : ∀ q ∈ queries, q.length = x.ncols)
    (k : Nat) (hk : 1 ≤ k) (hkn : k ≤ x.nrows) (y : List α) (hy : y.length = x.nrows) :
    ∃ answers labels, KDTree.query nrm Q nodes queries k = .ok answers ∧
      mapRes (fun a => mapRes (fun e => readAt y e.2) a) answers = .ok labels ∧
      List.Forall₂ (fun q ls => ls.length = k ∧ ∃ (i : Nat) (p : List α) (l : α), x.rows[i]? = some p ∧ y[i]? = some l ∧
        ls.head? = some l ∧ ∀ p' ∈ x.rows, distance nrm p q ≤ distance nrm p' q) queries labels := by
  obtain ⟨answers, hans, hnear⟩ := C16_k_nearest x hx leafSize nodes hb hthree hn hQ hw queries hq k hk hkn
  refine ⟨answers, answers.map fun a => a.map fun e => y.getD e.2 0, hans, ?_, ?_⟩
  · rw [mapRes_ok_iff, List.forall₂_map_right_iff, List.forall₂_same]
    intro a ha
    obtain ⟨q, _, hqa⟩ : ∃ q ∈ queries, IsKNearest nrm x.rows q k a := by
      have := List.forall₂_iff_get.mp hnear
      obtain ⟨i, hi, rfl⟩ := List.getElem_of_mem ha
      exact ⟨queries[i], List.getElem_mem _, this.2 i (by rw [this.1]; exact hi) hi⟩
    rw [mapRes_ok_iff, List.forall₂_map_right_iff, List.forall₂_same]
    intro e he
    obtain ⟨p, hp, _⟩ := hqa.true_distance e he
    obtain ⟨hlt, _⟩ := List.getElem?_eq_some_iff.mp hp
    have hlt' : e.2 < y.length := by rw [hy]; exact hlt
    rw [readAt_of_lt hlt', List.getD_eq_getElem _ _ hlt']
  · rw [List.forall₂_map_right_iff]
    refine hnear.imp fun q a h => ⟨by rw [List.length_map, h.length], ?_⟩
    cases a with
    | nil => have := h.length; simp at this; omega
    | cons e es =>
      obtain ⟨p, hp, hd⟩ := h.true_distance e (by simp)
      obtain ⟨hlt, hpe⟩ := List.getElem?_eq_some_iff.mp hp
      have hlt' : e.2 < y.length := by rw [hy]; exact hlt
      refine ⟨e.2, p, y[e.2], hp, List.getElem?_eq_getElem hlt', by rw [List.map_cons, List.head?_cons, List.getD_eq_getElem _ _ hlt'],
        fun p' hp' => ?_⟩
      obtain ⟨i, hi, rfl⟩ := List.getElem_of_mem hp'
      rw [← WithTop.coe_le_coe, ← hd]
      by_cases hin : i ∈ (e :: es).map Prod.snd
      · obtain ⟨e', he', rfl⟩ := List.mem_map.mp hin
        obtain ⟨p'', hp'', hd''⟩ := h.true_distance e' he'
        rw [List.getElem?_eq_getElem hi] at hp''
        rw [Option.some.inj hp'', ← hd'']
        rcases List.mem_cons.mp he' with rfl | he'
        · exact le_refl _
        · exact List.rel_of_pairwise_cons h.sorted he'
      · exact h.nearest i _ (List.getElem?_eq_getElem hi) hin e (by simp)

/-- C99: with solver "kdtree" and at least two neighbours `predict` aborts in a build with assertions. In a build without, it
returns a single label, however many queries there are: a most frequent label among the nearest samples of all queries. The other
neighbours have no influence. -/
theorem C99_kdtree {nrm : List α → α} (hn : MonotoneNorm nrm) {Q : PQueue (WithTop α × Nat)} (hQ : Q.Lawful Prod.fst)
    (hw : FirstFeatureWidest x.ncols x.rows) (queries : List (List α)) (hne : queries ≠ []) (hq : ∀ q ∈ queries, q.length = x.ncols)
    (k : Nat) (hk : 1 ≤ k) (hkn : k ≤ x.nrows) (y : List α) (hy : y.length = x.nrows) :
    (2 ≤ k → predictTree true nrm Q nodes k y queries = .ub) ∧
    ∃ nearest a m, List.Forall₂ (fun q l => ∃ (i : Nat) (p : List α), x.rows[i]? = some p ∧ y[i]? = some l ∧
        ∀ p' ∈ x.rows, distance nrm p q ≤ distance nrm p' q) queries nearest ∧ IsMode nearest a m ∧
      predictTree false nrm Q nodes k y queries = .ok [a] := by
  obtain ⟨answers, labels, h1, h2, h3⟩ := tree_labels x hx leafSize nodes hb hthree hn hQ hw queries hq k hk hkn y hy
  have hlen : queries.length = labels.length := h3.length_eq
  have hwf : (⟨k, labels⟩ : DMat α).WF := by
    intro r hr
    obtain ⟨i, hi, rfl⟩ := List.getElem_of_mem (show r ∈ labels from hr)
    exact ((List.forall₂_iff_get.mp h3).2 i (by omega) hi).1
  have hrows : 0 < (⟨k, labels⟩ : DMat α).nrows := by
    show 0 < labels.length
    rw [← hlen]
    exact List.length_pos_iff.mpr hne
  obtain ⟨ms, hms, hmode⟩ := (C28_mode (⟨k, labels⟩ : DMat α) hwf hrows hk).1
  have hmlen : ms.length = k := by
    rw [← hmode.length_eq]
    simp [DMat.cols]
  have hall : ∀ b, predictTree b nrm Q nodes k y queries = assignRow b (ms.map Prod.fst) := by
    intro b
    rw [predictTree, h1, Res.bind_ok, h2, Res.bind_ok, hms, Res.bind_ok]
  constructor
  · intro h2k
    rw [hall]
    unfold assignRow
    rw [if_pos ⟨rfl, by rw [List.length_map, hmlen]; omega⟩]
  · cases ms with
    | nil => simp at hmlen; omega
    | cons m ms =>
      have hcols : (⟨k, labels⟩ : DMat α).cols = (⟨k, labels⟩ : DMat α).col 0 :: ((List.range k).tail.map (⟨k, labels⟩ : DMat α).col) := by
        obtain ⟨k', rfl⟩ : ∃ k', k = k' + 1 := ⟨k - 1, by omega⟩
        rw [DMat.cols, List.range_succ_eq_map]
        rfl
      rw [hcols] at hmode
      cases hmode with
      | cons hm hrest =>
        refine ⟨_, m.1, m.2, ?_, hm, by rw [hall]; rfl⟩
        clear hrest h1 h2 hms hm hall hwf hrows hcols hne hq hlen
        show List.Forall₂ _ queries (labels.filterMap (·[0]?))
        induction h3 with
        | nil => exact .nil
        | @cons q ls qs lss h _ ih =>
          obtain ⟨_, i, p, l, g1, g2, g3, g4⟩ := h
          rw [List.filterMap_cons_some (by rw [← List.head?_eq_getElem?]; exact g3)]
          exact .cons ⟨i, p, g1, g2, g4⟩ ih

end Tree

/-- The points of `kdGood` as rational numbers. -/
def knnRows : DMat ℚ := ⟨2, [[0, 3], [90, 1], [20, 5], [30, 0], [40, 9], [50, 2], [60, 8], [70, 4], [80, 7], [10, 6],
  [100, 10], [110, 11]]⟩

/-- Example for `C99_kdtree`: all hypotheses hold for these points, leaf size 5, three neighbours and three queries. -/
example : ∃ nodes, KDTree.build knnRows 5 = .ok nodes ∧
    (predictTree true norm1 (listQueue Prod.fst) nodes 3 [0, 1, 0, 0, 0, 1, 1, 1, 1, 0, 1, 1] [[1, 1], [99, 8], [12, 5]] = .ub) := by
  have hwf : knnRows.WF := by decide
  obtain ⟨nodes, hb, _⟩ := C15_build knnRows hwf (by decide) (by decide) 5 (by decide)
  have h3 := C15_leaves_of_three knnRows hwf (by decide) (by decide) 5 (by decide) nodes hb
  refine ⟨nodes, hb, (C99_kdtree knnRows hwf 5 nodes hb h3 KDTree.norm1_monotone (listQueue_lawful _) ?_ [[1, 1], [99, 8], [12, 5]] (by simp)
    (by decide) 3 (by decide) (by decide) [0, 1, 0, 0, 0, 1, 1, 1, 1, 0, 1, 1] rfl).1 (by decide)⟩
  intro j hj p hp q hq a b ha hb
  refine ⟨[0, 3], by decide +kernel, [110, 11], by decide +kernel, 0, 110, rfl, rfl, ?_⟩
  have h : ∀ p ∈ knnRows.rows, ∀ a ∈ p, 0 ≤ a ∧ a ≤ 110 := by decide +kernel
  have h1 := h p hp a (List.mem_of_getElem? ha)
  have h2 := h q hq b (List.mem_of_getElem? hb)
  rw [abs_le]
  constructor <;> norm_num <;> linarith

/-- Example: three queries, one label. The labels of the nearest samples are 0, 1 and 0. -/
example : (KDTree.build knnRows 5 >>= fun nodes => predictTree false norm1 (listQueue Prod.fst) nodes 3
    [0, 1, 0, 0, 0, 1, 1, 1, 1, 0, 1, 1] [[1, 1], [99, 8], [12, 5]]) = .ok [0] := by decide +kernel

end OpenML
