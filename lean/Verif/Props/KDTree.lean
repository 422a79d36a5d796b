import Verif.Lemmas.KDFinal

/-!
# C15-C18: the KD-tree
-/

namespace OpenML
open KDTree Spec

variable {α : Type} [CommRing α] [LinearOrder α] [IsStrictOrderedRing α]

/-- The leaves of a built tree: rows and their row numbers. -/
def kdLeaves (nodes : List (Node α)) : List (List (List α) × List Nat) := nodes.filterMap Node.leaf

/-- Twelve points whose first feature has the largest spread. -/
def kdGood : DMat Int := ⟨2, [[0, 3], [90, 1], [20, 5], [30, 0], [40, 9], [50, 2], [60, 8], [70, 4], [80, 7], [10, 6],
  [100, 10], [110, 11]]⟩

/-- A query on a freshly built tree with a concrete queue. -/
def kdAsk (x : DMat Int) (q : List Int) (k : Nat) : Res (List (WithTop Int × Nat)) := do
  let nodes ← build x 5
  querySingle norm1 (listQueue Prod.fst) nodes q k

/-- The first feature of the twelve points ranges from 0 to 110, the second from 0 to 11. -/
theorem kdGood_widest : FirstFeatureWidest kdGood.ncols kdGood.rows := by
  intro j hj p hp q hq a b ha hb
  refine ⟨[0, 3], by decide, [110, 11], by decide, 0, 110, rfl, rfl, ?_⟩
  have h : ∀ p ∈ kdGood.rows, ∀ a ∈ p, 0 ≤ a ∧ a ≤ 110 := by decide
  have h1 := h p hp a (List.mem_of_getElem? ha)
  have h2 := h q hq b (List.mem_of_getElem? hb)
  rw [abs_le]
  constructor <;> norm_num <;> omega

/-- C15. With at least three rows, one feature and `leaf_size ≥ 2` the construction returns; the leaves hold each row number
exactly once, next to the row it belongs to, and have between 1 and `leaf_size` rows. -/
theorem C15_build (x : DMat α) (hx : x.WF) (hc : 0 < x.ncols) (h3 : 3 ≤ x.nrows) (leafSize : Nat) (hL : 2 ≤ leafSize) :
    ∃ nodes, build x leafSize = .ok nodes ∧ ((kdLeaves nodes).flatMap Prod.snd).Perm (List.range x.nrows) ∧
      ∀ p ∈ kdLeaves nodes, 1 ≤ p.1.length ∧ p.1.length ≤ leafSize ∧ p.2.length = p.1.length ∧
        ∀ (j i : Nat) (row : List α), p.2[j]? = some i → p.1[j]? = some row → x.rows[i]? = some row := by
  obtain ⟨nodes, t, hb, ht⟩ := build_ok x hx hc h3 leafSize hL
  have hl : kdLeaves nodes = t.leaves := by rw [kdLeaves, ht.flat, T.leaves_flat]
  refine ⟨nodes, hb, ?_, ?_⟩
  · rw [hl]
    have h1 := ht.entries.map Prod.snd
    rw [List.map_snd_zip (by simp [DMat.nrows])] at h1
    have h2 : t.entries.map Prod.snd = t.leaves.flatMap Prod.snd := by
      rw [T.entries, List.map_flatMap]
      apply List.flatMap_congr
      intro p hp
      rw [List.map_snd_zip (by have := (ht.sizes p hp).2.2; omega)]
    rwa [h2] at h1
  · intro p hp
    rw [hl] at hp
    obtain ⟨s1, s2, s3⟩ := ht.sizes p hp
    refine ⟨s2, s1, s3, ?_⟩
    intro j i row hj hrow
    have hmem : (row, i) ∈ t.entries := by
      rw [T.entries, List.mem_flatMap]
      refine ⟨p, hp, List.mem_of_getElem? (i := j) ?_⟩
      rw [List.zip, List.getElem?_zipWith, hrow, hj]
    obtain ⟨k, hk⟩ := List.getElem?_of_mem (ht.entries.mem_iff.mp hmem)
    rw [List.zip, List.getElem?_zipWith] at hk
    cases hr : x.rows[k]? with
    | none => rw [hr] at hk; simp at hk
    | some q =>
      have hkl : k < x.nrows := (List.getElem?_eq_some_iff.mp hr).1
      rw [hr, List.getElem?_range hkl] at hk
      simp only [Option.some.injEq, Prod.mk.injEq] at hk
      obtain ⟨rfl, rfl⟩ := hk
      exact hr

example : kdGood.WF ∧ 0 < kdGood.ncols ∧ 3 ≤ kdGood.nrows ∧
    (build kdGood 5).bind (fun nodes => .ok ((kdLeaves nodes).map Prod.snd)) = .ok [[1, 10, 11], [6, 7, 8], [3, 4, 5], [0, 9, 2]] := ⟨by decide, by decide, by decide, by decide +kernel⟩

/-- C15. In all other cases - fewer than three rows, no feature, or `leaf_size < 2` - the construction reads out of bounds;
in no case does it run forever or throw. -/
theorem C15_build_undefined (x : DMat α) (hx : x.WF) (leafSize : Nat)
    (h : x.nrows < 3 ∨ x.ncols = 0 ∨ leafSize < 2) : build x leafSize = .ub := build_ub x hx leafSize h

/-- Two rows and a leaf size of one. -/
example : (⟨1, [[1], [2]]⟩ : DMat Int).WF ∧ build (⟨1, [[1], [2]]⟩ : DMat Int) 5 = .ub ∧ build kdGood 1 = .ub :=
  ⟨by decide, C15_build_undefined _ (by decide) 5 (by decide), C15_build_undefined _ (by decide) 1 (by decide)⟩

/-- C15. For `leaf_size ≥ 5` and at least six rows every leaf has three or more rows. -/
theorem C15_leaves_of_three (x : DMat α) (hx : x.WF) (hc : 0 < x.ncols) (h6 : 6 ≤ x.nrows) (leafSize : Nat)
    (hL : 5 ≤ leafSize) (nodes : List (Node α)) (hb : build x leafSize = .ok nodes) :
    ∀ p ∈ kdLeaves nodes, 3 ≤ p.1.length := by
  obtain ⟨nodes', t, hb', ht⟩ := build_ok x hx hc (by omega) leafSize (by omega)
  rw [hb] at hb'
  cases hb'
  rw [kdLeaves, ht.flat, T.leaves_flat]
  exact ht.three hL h6

example : kdGood.WF ∧ 6 ≤ kdGood.nrows ∧ (build kdGood 5).bind (fun nodes => .ok ((kdLeaves nodes).map fun p => p.2.length)) = .ok [3, 3, 3, 3] :=
  ⟨by decide, by decide, by decide +kernel⟩

section Query
variable (x : DMat α) (hx : x.WF) (leafSize : Nat) (nodes : List (Node α)) (hb : build x leafSize = .ok nodes)
  (hthree : ∀ p ∈ kdLeaves nodes, 3 ≤ p.1.length)

include hx hb

/-- A successful construction comes from enough rows. -/
theorem kd_facts : 0 < x.ncols ∧ 3 ≤ x.nrows ∧ ∃ t, BuiltTree x leafSize nodes t := by
  by_cases h : x.nrows < 3 ∨ x.ncols = 0 ∨ leafSize < 2
  · rw [build_ub x hx leafSize h] at hb; cases hb
  · push Not at h
    obtain ⟨nodes', t, hb', ht⟩ := build_ok x hx (by omega) (by omega) leafSize (by omega)
    rw [hb] at hb'
    cases hb'
    exact ⟨by omega, by omega, t, ht⟩

theorem kd_rows {t : T α} (ht : BuiltTree x leafSize nodes t) : ∀ e ∈ t.entries, e.1.length = x.ncols := fun e he =>
  hx _ (List.of_mem_zip (ht.entries.mem_iff.mp he)).1

include hthree

theorem kd_query_exact {nrm : List α → α} (hn : MonotoneNorm nrm) {Q : PQueue (WithTop α × Nat)} (hQ : Q.Lawful Prod.fst)
    (hw : FirstFeatureWidest x.ncols x.rows) (q : List α) (hq : q.length = x.ncols) (k : Nat) (hk : 1 ≤ k) :
    ∃ res, querySingle nrm Q nodes q k = .ok res ∧ res.Pairwise (fun a b => a.1 ≤ b.1) ∧
      IsKSmallest Prod.fst k res (List.replicate k (⊤, 0) ++ allEntries nrm x.rows q) := by
  obtain ⟨hc, h3, t, ht⟩ := kd_facts x hx leafSize nodes hb
  have hbox := ht.boxed (axis_zero x hx hc (by omega) hw)
  have hl : kdLeaves nodes = t.leaves := by rw [kdLeaves, ht.flat, T.leaves_flat]
  rw [hl] at hthree
  obtain ⟨s, hs, hA⟩ := visit_exact hn hQ q k hk t (hq ▸ ht.wide) hbox
    (fun e he => by rw [hq]; exact kd_rows x hx leafSize nodes hb ht e he)
    (fun p hp => ⟨hthree p hp, (ht.sizes p hp).2.2⟩) _ _ (initHeap_spec hQ k)
  have hA' : IsKSmallest Prod.fst k (Q.elems s) (List.replicate k (⊤, 0) ++ allEntries nrm x.rows q) :=
    hA.perm (List.Perm.refl _) ((ht.entries.map _).append_left _)
  rw [ht.flat]
  exact querySingle_of_visit hQ t q k s _ hs hA'

/-- C16. If feature 0 has the largest spread and no leaf has fewer than three rows, `query` with `1 ≤ k ≤ n` answers every
query point with its `k` nearest rows, for every monotone norm and whatever order the priority queue breaks ties in. -/
theorem C16_k_nearest {nrm : List α → α} (hn : MonotoneNorm nrm) {Q : PQueue (WithTop α × Nat)} (hQ : Q.Lawful Prod.fst)
    (hw : FirstFeatureWidest x.ncols x.rows) (queries : List (List α)) (hq : ∀ q ∈ queries, q.length = x.ncols)
    (k : Nat) (hk : 1 ≤ k) (hkn : k ≤ x.nrows) :
    ∃ answers, query nrm Q nodes queries k = .ok answers ∧
      List.Forall₂ (fun q a => IsKNearest nrm x.rows q k a) queries answers := by
  unfold query
  induction queries with
  | nil => exact ⟨[], rfl, List.Forall₂.nil⟩
  | cons q qs ih =>
    obtain ⟨as, h1, h2⟩ := ih fun q' h' => hq q' (by simp [h'])
    obtain ⟨res, r1, r2, r3⟩ := kd_query_exact x hx leafSize nodes hb hthree hn hQ hw q (hq q (by simp)) k hk
    exact ⟨res :: as, by simp [mapRes, r1, h1], .cons (isKNearest_of_smallest nrm x.rows q k hkn res r2 r3) h2⟩

omit hx hb in
example : FirstFeatureWidest kdGood.ncols kdGood.rows ∧
    kdAsk kdGood [12, 5] 2 = .ok [(((3 : Int) : WithTop Int), 9), (((8 : Int) : WithTop Int), 2)] := ⟨kdGood_widest, by decide +kernel⟩

/-- C16. For `k > n` the answer consists of all rows, nearest first, followed by `(infinity, 0)`. -/
theorem C16_padding {nrm : List α → α} (hn : MonotoneNorm nrm) {Q : PQueue (WithTop α × Nat)} (hQ : Q.Lawful Prod.fst)
    (hw : FirstFeatureWidest x.ncols x.rows) (queries : List (List α)) (hq : ∀ q ∈ queries, q.length = x.ncols)
    (k : Nat) (hkn : x.nrows < k) :
    ∃ answers, query nrm Q nodes queries k = .ok answers ∧
      List.Forall₂ (fun q a => ∃ found, a = found ++ List.replicate (k - x.nrows) (⊤, 0) ∧
        IsKNearest nrm x.rows q x.nrows found) queries answers := by
  unfold query
  induction queries with
  | nil => exact ⟨[], rfl, List.Forall₂.nil⟩
  | cons q qs ih =>
    obtain ⟨as, h1, h2⟩ := ih fun q' h' => hq q' (by simp [h'])
    obtain ⟨res, r1, r2, r3⟩ := kd_query_exact x hx leafSize nodes hb hthree hn hQ hw q (hq q (by simp)) k (by omega)
    exact ⟨res :: as, by simp [mapRes, r1, h1], .cons (padded_of_smallest nrm x.rows q k hkn res r2 r3) h2⟩

omit hx hb in
/-- Six rows and a query for eight neighbours. -/
example : kdAsk ⟨1, [[5], [1], [4], [2], [3], [60]]⟩ [2] 8 = .ok [(((0 : Int) : WithTop Int), 3), (((1 : Int) : WithTop Int), 1),
    (((1 : Int) : WithTop Int), 4), (((2 : Int) : WithTop Int), 2), (((3 : Int) : WithTop Int), 0), (((58 : Int) : WithTop Int), 5), (⊤, 0),
    (⊤, 0)] := by decide +kernel

/-- C17, the part of C16 that survives for arbitrary data: `k` different rows with their true distances, nearest first. What
can fail is only that they are the nearest ones. -/
theorem C17_sound {nrm : List α → α} (hn : MonotoneNorm nrm) {Q : PQueue (WithTop α × Nat)} (hQ : Q.Lawful Prod.fst)
    (q : List α) (hq : q.length = x.ncols) (k : Nat) (hk : 1 ≤ k) (hkn : k ≤ x.nrows) :
    ∃ answer, querySingle nrm Q nodes q k = .ok answer ∧ answer.length = k ∧
      answer.Pairwise (fun a b => a.1 ≤ b.1) ∧ (answer.map Prod.snd).Nodup ∧
      ∀ e ∈ answer, ∃ p, x.rows[e.2]? = some p ∧ e.1 = (distance nrm p q : α) := by
  obtain ⟨hc, h3, t, ht⟩ := kd_facts x hx leafSize nodes hb
  have hl : kdLeaves nodes = t.leaves := by rw [kdLeaves, ht.flat, T.leaves_flat]
  rw [hl] at hthree
  obtain ⟨s, V, hs, hV, hA, hF⟩ := visit_sound hn hQ q k hk t (hq ▸ ht.wide)
    (fun e he => by rw [hq]; exact kd_rows x hx leafSize nodes hb ht e he)
    (fun p hp => ⟨hthree p hp, (ht.sizes p hp).2.2⟩) _ _ (initHeap_spec hQ k)
  have hsub : (V.map (entryKey nrm q)).Subperm (allEntries nrm x.rows q) :=
    (hV.map _).subperm.trans (ht.entries.map _).subperm
  have hfin : ∀ e ∈ Q.elems s, e.1 ≠ ⊤ := by
    rcases hF with rfl | hF
    · refine hA.no_padding (fun e he => allEntries_finite nrm x.rows q e (hsub.subset he)) ?_
      rw [List.length_map, ht.entries.length_eq]
      simpa [DMat.nrows] using hkn
    · exact hF
  obtain ⟨res, r1, r2, r3⟩ := querySingle_of_visit hQ t q k s _ hs hA
  have hfin' : ∀ e ∈ res, e.1 ≠ ⊤ := by
    obtain ⟨res', q1, q2, q3⟩ := drain_spec hQ k s [] hA.1 List.Pairwise.nil (by simp)
    have : res' = res := by
      have h := r1
      unfold querySingleWith at h
      rw [T.flat_head] at h
      simp only at h
      rw [queryLoop_eq, walk_root _ _ t _ s hs] at h
      simp only [Res.bind_ok] at h
      rw [q1] at h
      exact Res.ok.inj h
    subst this
    intro e he
    exact hfin e (by simpa using q2.mem_iff.mp he)
  obtain ⟨-, k1, k2, k3⟩ := sound_of_smallest nrm x.rows q k res _ hsub hfin' r3
  rw [ht.flat]
  exact ⟨res, r1, k1, r2, k2, k3⟩

omit hthree

/-- C16. Asking for no neighbour at all reads the top of an empty heap. -/
theorem C16_zero_neighbours {nrm : List α → α} {Q : PQueue (WithTop α × Nat)} (hQ : Q.Lawful Prod.fst) (q : List α) :
    querySingle nrm Q nodes q 0 = .ub := by
  obtain ⟨hc, h3, t, ht⟩ := kd_facts x hx leafSize nodes hb
  obtain ⟨lr, rr, l, r, rfl⟩ := ht.branch
  have ht := ht.flat
  subst ht
  have htop : Q.top (initHeap Q 0) = none := hQ.top_none _ hQ.elems_empty
  unfold querySingle querySingleWith
  rw [T.flat_head]
  simp only
  rw [T.length_flat]
  have : (T.branch lr rr l r).size = (r.size + l.size) + 1 := by simp only [T.size]; omega
  rw [this]
  simp [queryLoop, T.node, htop]

omit hx hb in
example : kdAsk kdGood [12, 5] 0 = .ub := by decide +kernel

end Query

/-- C16. The three metrics of the library are monotone norms: manhattan and chebyshev over every ordered ring, euclidean over
the reals. -/
theorem C16_metrics : MonotoneNorm (norm1 : List α → α) ∧ MonotoneNorm (normInf : List α → α) ∧ MonotoneNorm norm2 :=
  ⟨norm1_monotone, normInf_monotone, norm2_monotone⟩

example : norm1 [3, -4] = (7 : Int) ∧ normInf [3, -4] = (4 : Int) := ⟨by decide +kernel, by decide +kernel⟩

section Radius
variable (x : DMat α) (hx : x.WF) (leafSize : Nat) (nodes : List (Node α)) (hb : build x leafSize = .ok nodes)

include hx hb

/-- C18. A radius query reports only rows within the radius, with their true distances and each at most once; if feature 0
has the largest spread it reports every row strictly inside the radius. -/
theorem C18_radius {nrm : List α → α} (hn : MonotoneNorm nrm) (q : List α) (hq : q.length = x.ncols) (radius : α) :
    ∃ answer, radiusSingle nrm nodes q radius = .ok answer ∧ (answer.map Prod.snd).Nodup ∧
      (∀ e ∈ answer, e.1 ≤ radius ∧ ∃ p, x.rows[e.2]? = some p ∧ e.1 = distance nrm p q) ∧
      (FirstFeatureWidest x.ncols x.rows → ∀ (i : Nat) (p : List α), x.rows[i]? = some p → distance nrm p q < radius →
        (distance nrm p q, i) ∈ answer) := by
  obtain ⟨hc, h3, t, ht⟩ := kd_facts x hx leafSize nodes hb
  obtain ⟨V, hv, hsub, hcomp⟩ := radVisit_spec hn q radius t (hq ▸ ht.wide)
    (fun e he => by rw [hq]; exact kd_rows x hx leafSize nodes hb ht e he) (fun p hp => (ht.sizes p hp).2.2) []
  have hVmem : ∀ e ∈ V, x.rows[e.2]? = some e.1 := by
    intro e he
    obtain ⟨k, hk⟩ := List.getElem?_of_mem (ht.entries.mem_iff.mp (hsub.subset he))
    rw [List.zip, List.getElem?_zipWith] at hk
    cases hr : x.rows[k]? with
    | none => rw [hr] at hk; simp at hk
    | some p =>
      have hkl : k < x.nrows := (List.getElem?_eq_some_iff.mp hr).1
      rw [hr, List.getElem?_range hkl] at hk
      simp only [Option.some.injEq] at hk
      subst hk
      exact hr
  refine ⟨_, by rw [ht.flat]; exact radiusSingle_of_visit t q radius _ hv, ?_, ?_, ?_⟩
  · rw [List.nil_append]
    refine List.Nodup.sublist (List.Sublist.map _ List.filter_sublist) ?_
    rw [List.map_map]
    have : (Prod.snd ∘ radKey nrm q : List α × Nat → Nat) = Prod.snd := rfl
    rw [this]
    refine List.Nodup.sublist (hsub.map _) ?_
    rw [(ht.entries.map Prod.snd).nodup_iff, List.map_snd_zip (by simp [DMat.nrows])]
    exact List.nodup_range
  · intro e he
    rw [List.nil_append, List.mem_filter] at he
    obtain ⟨he, hle⟩ := he
    obtain ⟨v, hv', rfl⟩ := List.mem_map.mp he
    exact ⟨by simpa using hle, v.1, hVmem v hv', rfl⟩
  · intro hw i p hp hd
    have hmem : (p, i) ∈ t.entries := by
      refine ht.entries.mem_iff.mpr (List.mem_of_getElem? (i := i) ?_)
      have hkl : i < x.nrows := (List.getElem?_eq_some_iff.mp hp).1
      rw [List.zip, List.getElem?_zipWith, hp, List.getElem?_range hkl]
    have := hcomp (ht.boxed (axis_zero x hx hc (by omega) hw)) _ hmem hd
    rw [List.nil_append, List.mem_filter]
    exact ⟨List.mem_map.mpr ⟨_, this, rfl⟩, by simpa using hd.le⟩

/-- C18. With a radius that is not positive nothing is found, even at distance 0. -/
theorem C18_nonpositive_radius {nrm : List α → α} (hn : MonotoneNorm nrm) (h0 : ∀ v, 0 ≤ nrm v) (q : List α)
    (hq : q.length = x.ncols) (radius : α) (hr : radius ≤ 0) : radiusSingle nrm nodes q radius = .ok [] := by
  obtain ⟨hc, h3, t, ht⟩ := kd_facts x hx leafSize nodes hb
  obtain ⟨lr, rr, l, r, rfl⟩ := ht.branch
  have hw := ht.wide
  obtain ⟨⟨w1, w2, w3, w4⟩, -, -⟩ := hw
  rw [ht.flat]
  apply radiusSingle_of_visit
  have key : ∀ rect : Rect α, rect.lo.length = q.length → rect.hi.length = q.length →
      checkIntersection nrm rect q radius = .ok false := by
    intro rect h1 h2
    obtain ⟨c, hc, -⟩ := clampPoint_spec rect.lo rect.hi q h1 h2
    simp only [checkIntersection, hc, Res.bind_ok, Res.ok.injEq, decide_eq_false_iff_not, not_lt]
    exact WithTop.coe_le_coe.mpr (hr.trans (h0 _))
  simp [visit, radTest, key lr (by omega) (by omega), key rr (by omega) (by omega)]

/-- C18. The answers of `query_radius` are the non-empty single answers in query order: a query without hit leaves no trace,
so positions in the answer need not match positions in the query. -/
theorem C18_answers_are_compacted {nrm : List α → α} (hn : MonotoneNorm nrm) (queries : List (List α))
    (hq : ∀ q ∈ queries, q.length = x.ncols) (radius : α) :
    ∃ singles, List.Forall₂ (fun q a => radiusSingle nrm nodes q radius = .ok a) queries singles ∧
      queryRadius nrm nodes queries radius = .ok (singles.filter fun a => !a.isEmpty) := by
  have : ∃ singles, List.Forall₂ (fun q a => radiusSingle nrm nodes q radius = .ok a) queries singles ∧
      mapRes (fun x => radiusSingle nrm nodes x radius) queries = .ok singles := by
    induction queries with
    | nil => exact ⟨[], .nil, rfl⟩
    | cons q qs ih =>
      obtain ⟨as, h1, h2⟩ := ih fun q' h' => hq q' (by simp [h'])
      obtain ⟨a, ha, -⟩ := C18_radius x hx leafSize nodes hb hn q (hq q (by simp)) radius
      exact ⟨a :: as, .cons ha h1, by simp [mapRes, ha, h2]⟩
  obtain ⟨s, h1, h2⟩ := this
  exact ⟨s, h1, by simp [queryRadius, h2]⟩

end Radius

/-! ## Examples -/

/-- Twelve points whose second feature has the largest spread; the split value of the second feature lies far below all
values of the first. -/
def kdBad : DMat Int := ⟨2, [[1000, 0], [1010, 10], [1020, 20], [1030, 30], [1040, 40], [1050, 48], [1050, 52], [1040, 60],
  [1030, 70], [1020, 80], [1010, 90], [1000, 100]]⟩

example : kdBad.WF := by decide

/-- C17. A training set, none of whose leaves is small, and a query point: row 5 is at distance 1 but `query` reports row 6
at distance 3 as the nearest neighbour. -/
theorem C17_misses_nearest : kdAsk kdBad [1050, 49] 1 = .ok [(((3 : Int) : WithTop Int), 6)] ∧
    kdBad.rows[5]? = some [1050, 48] ∧ distance norm1 [1050, 48] [1050, 49] = (1 : Int) := by
  refine ⟨by decide +kernel, rfl, by decide⟩

/-- C17. Hence the answer is not a nearest-neighbour answer. -/
theorem C17_not_nearest : ∃ answer, kdAsk kdBad [1050, 49] 1 = .ok answer ∧
    ¬ IsKNearest norm1 kdBad.rows [1050, 49] 1 answer := by
  refine ⟨_, C17_misses_nearest.1, ?_⟩
  intro h
  have := h.nearest 5 [1050, 48] rfl (by decide) _ (List.mem_singleton.mpr rfl)
  rw [C17_misses_nearest.2.2] at this
  exact absurd (WithTop.coe_le_coe.mp this) (by decide)

/-- The radius query on a freshly built tree. -/
def kdAskRadius (x : DMat Int) (qs : List (List Int)) (r : Int) : Res (List (List (Int × Nat))) := do
  let nodes ← build x 5
  queryRadius norm1 nodes qs r



example : kdAskRadius kdGood [[12, 5], [500, 500], [0, 3]] 9 = .ok [[(3, 9), (8, 2)], [(0, 0)]] := by decide +kernel

/-- C18. A row at distance exactly the radius may be left out: row 6 is at distance 5 of the query point, but the query with
radius 5 finds nothing. -/
theorem C18_boundary_row_missed : kdAskRadius kdGood [[55, 8]] 5 = .ok [] ∧ kdGood.rows[6]? = some [60, 8] ∧
    distance norm1 [60, 8] [55, 8] = (5 : Int) := ⟨by decide +kernel, rfl, by decide⟩

end OpenML
