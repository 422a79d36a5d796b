import Verif.Props.KDTree

/-!
# Traversals of a k-d tree whose box distances and row distances are computed differently
-/

set_option linter.unusedSectionVars false

namespace OpenML.KDTree
open Spec

variable {α : Type} [CommRing α] [LinearOrder α] [IsStrictOrderedRing α]

theorem check_near {c : α} {nrmP nrm : List α → α} (r : Rect α) (x : List α) (hn : NearMonotone x.length c nrmP nrm) (radius : WithTop α)
    (h1 : r.lo.length = x.length) (h2 : r.hi.length = x.length) :
    ∃ b, checkIntersection nrmP r x radius = .ok b ∧ (b = false → ∀ row, row.length = x.length → InRect r row →
      radius ≤ (c * distance nrm row x : α)) := by
  obtain ⟨p, hp, hall⟩ := clampPoint_spec r.lo r.hi x h1 h2
  refine ⟨decide ((nrmP (List.zipWith (· - ·) p x) : WithTop α) < radius), ?_, ?_⟩
  · simp [checkIntersection, hp]
  · intro hb row hl hin
    have hle := hn _ _ (by simp [hl]) (hall row hl hin)
    simp only [decide_eq_false_iff_not, not_lt] at hb
    exact hb.trans (WithTop.coe_le_coe.mpr hle)

/-- A bound for the heap stays one. -/
theorem heap_bound {Q : PQueue (WithTop α × Nat)} {k : Nat} {s s' : Q.σ} {A B : List (WithTop α × Nat)} (b : WithTop α)
    (h : IsKSmallest Prod.fst k (Q.elems s) A) (h' : IsKSmallest Prod.fst k (Q.elems s') (A ++ B)) (hf : ∀ y ∈ Q.elems s, y.1 ≤ b) :
    ∀ y ∈ Q.elems s', y.1 ≤ b := by
  obtain ⟨hlen, D, hD, -⟩ := h
  intro y hy
  exact h'.le_of_many (B := Q.elems s) (C := D ++ B) (by rw [← List.append_assoc]; exact hD.append_right _) (by omega) b hf y hy

/-- The traversal holds the `k` smallest of the rows visited; rows skipped are not much closer if the boxes are right. -/
theorem visit_near {c : α} {nrmP nrm : List α → α} {Q : PQueue (WithTop α × Nat)}
    (hQ : Q.Lawful Prod.fst) (x : List α) (hn : NearMonotone x.length c nrmP nrm) (k : Nat) (hk1 : 1 ≤ k) (t : T α) :
    Wide x.length t → Boxed t → (∀ e ∈ t.entries, e.1.length = x.length) →
    (∀ p ∈ t.leaves, 3 ≤ p.1.length ∧ p.2.length = p.1.length) → ∀ (s : Q.σ) (A : List (WithTop α × Nat)),
    IsKSmallest Prod.fst k (Q.elems s) A →
    ∃ (s' : Q.σ) (V : List (List α × Nat)), visit (nnLeaf nrm Q x k) (nnTest nrmP Q x) t s = .ok s' ∧ V.Sublist t.entries ∧
      IsKSmallest Prod.fst k (Q.elems s') (A ++ V.map (entryKey nrm x)) ∧
      ∀ e ∈ t.entries, e ∈ V ∨ ∀ y ∈ Q.elems s', y.1 ≤ (c * distance nrm e.1 x : α) := by
  induction t with
  | leaf rows idx =>
    intro _ _ he hl s A hA
    obtain ⟨h3, hi⟩ : 3 ≤ rows.length ∧ idx.length = rows.length := hl (rows, idx) (by simp [T.leaves])
    have hrow : ∀ r ∈ rows, r.length = x.length :=
      leaf_rows rows idx x.length hi fun e h => he e (by simpa [T.entries, T.leaves] using h)
    obtain ⟨s', h1, h2⟩ := nnLeaf_spec (nrm := nrm) hQ x k rows idx hrow h3 hi s A hA
    refine ⟨s', rows.zip idx, h1, by simp [T.entries, T.leaves], h2, fun e he' => Or.inl ?_⟩
    simpa [T.entries, T.leaves] using he'
  | branch lr rr l r ihl ihr =>
    intro hw hb he hl s A hA
    obtain ⟨⟨w1, w2, w3, w4⟩, wl, wr⟩ := hw
    obtain ⟨⟨b1, b2⟩, bl, br⟩ := hb
    have hel : ∀ e ∈ l.entries, e.1.length = x.length := fun e h => he e (by rw [T.entries_branch]; simp [h])
    have her : ∀ e ∈ r.entries, e.1.length = x.length := fun e h => he e (by rw [T.entries_branch]; simp [h])
    have hll : ∀ p ∈ l.leaves, 3 ≤ p.1.length ∧ p.2.length = p.1.length := fun p h => hl p (by simp [T.leaves, h])
    have hlr : ∀ p ∈ r.leaves, 3 ≤ p.1.length ∧ p.2.length = p.1.length := fun p h => hl p (by simp [T.leaves, h])
    have hne : Q.elems s ≠ [] := by
      intro h0
      have := hA.1
      rw [h0] at this
      simp at this
      omega
    obtain ⟨m, hm, hmax, -⟩ := hQ.top_some s hne
    obtain ⟨cl, hcl, hpl⟩ := check_near lr x hn m.1 w1 w2
    obtain ⟨cr, hcr, hpr⟩ := check_near rr x hn m.1 w3 w4
    have hright : ∃ (s1 : Q.σ) (V : List (List α × Nat)),
        (if cr then visit (nnLeaf nrm Q x k) (nnTest nrmP Q x) r s else .ok s) = .ok s1 ∧
        V.Sublist r.entries ∧ IsKSmallest Prod.fst k (Q.elems s1) (A ++ V.map (entryKey nrm x)) ∧
        ∀ e ∈ r.entries, e ∈ V ∨ ∀ y ∈ Q.elems s1, y.1 ≤ (c * distance nrm e.1 x : α) := by
      cases cr
      · refine ⟨s, [], rfl, by simp, by simpa using hA, fun e he' => Or.inr fun y hy => ?_⟩
        exact (hmax y hy).trans (hpr rfl e.1 (her e he') (b2 e he'))
      · exact ihr wr br her hlr s A hA
    obtain ⟨s1, V1, hs1, hV1, hA1, hF1⟩ := hright
    have hleft : ∃ (s2 : Q.σ) (V : List (List α × Nat)),
        (if cl then visit (nnLeaf nrm Q x k) (nnTest nrmP Q x) l s1 else .ok s1) = .ok s2 ∧
        V.Sublist l.entries ∧
        IsKSmallest Prod.fst k (Q.elems s2) (A ++ V1.map (entryKey nrm x) ++ V.map (entryKey nrm x)) ∧
        ∀ e ∈ l.entries, e ∈ V ∨ ∀ y ∈ Q.elems s2, y.1 ≤ (c * distance nrm e.1 x : α) := by
      cases cl
      · refine ⟨s1, [], rfl, by simp, by simpa using hA1, fun e he' => Or.inr fun y hy => ?_⟩
        exact (heap_bound m.1 hA hA1 hmax y hy).trans (hpl rfl e.1 (hel e he') (b1 e he'))
      · exact ihl wl bl hel hll s1 _ hA1
    obtain ⟨s2, V2, hs2, hV2, hA2, hF2⟩ := hleft
    refine ⟨s2, V1 ++ V2, ?_, ?_, ?_, ?_⟩
    · simp only [visit, nnTest, hm, hcl, hcr, Res.bind_ok]
      rw [hs1]
      exact hs2
    · rw [T.entries_branch]; exact hV1.append hV2
    · rw [List.map_append, ← List.append_assoc]
      exact hA2
    · intro e he'
      rw [T.entries_branch] at he'
      rcases List.mem_append.mp he' with he' | he'
      · rcases hF1 e he' with h | h
        · exact Or.inl (List.mem_append.mpr (Or.inl h))
        · exact Or.inr (heap_bound _ hA1 hA2 h)
      · rcases hF2 e he' with h | h
        · exact Or.inl (List.mem_append.mpr (Or.inr h))
        · exact Or.inr h

/-- Queries on a tree built with the widest feature in front. -/
theorem query_near (x : DMat α) (hx : x.WF) (leafSize : Nat) (nodes : List (Node α)) (hb : build x leafSize = .ok nodes)
    (hthree : ∀ p ∈ kdLeaves nodes, 3 ≤ p.1.length) {c : α} (hc1 : 1 ≤ c) {nrmP nrm : List α → α} (hpos : ∀ v, 0 ≤ nrm v)
    (hn : NearMonotone x.ncols c nrmP nrm)
    {Q : PQueue (WithTop α × Nat)} (hQ : Q.Lawful Prod.fst) (hw : FirstFeatureWidest x.ncols x.rows) (q : List α)
    (hq : q.length = x.ncols) (k : Nat) (hk : 1 ≤ k) (hkn : k ≤ x.nrows) :
    ∃ answer, querySingleWith nrmP nrm Q nodes q k = .ok answer ∧ IsNearlyKNearest c nrm x.rows q k answer := by
  obtain ⟨hc, h3, t, ht⟩ := kd_facts x hx leafSize nodes hb
  have hbox := ht.boxed (axis_zero x hx hc (by omega) hw)
  have hl : kdLeaves nodes = t.leaves := by rw [kdLeaves, ht.flat, T.leaves_flat]
  rw [hl] at hthree
  obtain ⟨s, V, hs, hV, hA, hF⟩ := visit_near hQ q (hq ▸ hn) k hk t (hq ▸ ht.wide) hbox
    (fun e he => by rw [hq]; exact kd_rows x hx leafSize nodes hb ht e he)
    (fun p hp => ⟨hthree p hp, (ht.sizes p hp).2.2⟩) _ _ (initHeap_spec hQ k)
  obtain ⟨res', q1, q2, q3⟩ := drain_spec hQ k s [] hA.1 List.Pairwise.nil (by simp)
  have hA' : IsKSmallest Prod.fst k res' (List.replicate k (⊤, 0) ++ V.map (entryKey nrm q)) :=
    hA.perm (by simpa using q2.symm) (List.Perm.refl _)
  have hsub : (V.map (entryKey nrm q)).Subperm (allEntries nrm x.rows q) :=
    (hV.map _).subperm.trans (ht.entries.map _).subperm
  have hfin : ∀ e ∈ res', e.1 ≠ ⊤ := by
    by_cases hall : ∀ e ∈ t.entries, e ∈ V
    · have hlen : V.length = t.entries.length := by
        refine le_antisymm hV.length_le ?_
        have hnd : (t.entries.map Prod.snd).Nodup := by
          have h1 := ht.entries.map Prod.snd
          rw [List.map_snd_zip (by simp [DMat.nrows])] at h1
          exact h1.nodup_iff.mpr List.nodup_range
        have : t.entries.Subperm V := (List.Nodup.of_map _ hnd).subperm hall
        exact this.length_le
      refine hA'.no_padding (fun e he => allEntries_finite nrm x.rows q e (hsub.subset he)) ?_
      rw [List.length_map, hlen, ht.entries.length_eq]
      simpa [DMat.nrows] using hkn
    · push Not at hall
      obtain ⟨e, he, heV⟩ := hall
      intro y hy
      exact ne_top_of_le_ne_top WithTop.coe_ne_top ((hF e he).resolve_left heV y (by simpa using q2.mem_iff.mp hy))
  obtain ⟨⟨D, hD, hle⟩, k1, k2, k3⟩ := sound_of_smallest nrm x.rows q k res' _ hsub hfin hA'
  refine ⟨res', ?_, ⟨k1, q3, k2, k3, ?_⟩⟩
  · rw [ht.flat]
    unfold querySingleWith
    rw [T.flat_head]
    simp only
    rw [queryLoop_eq, walk_root _ _ t _ s hs]
    exact q1
  · intro i p hp hni e he
    have hmem : (p, i) ∈ t.entries := by
      rw [ht.entries.mem_iff, List.mem_iff_getElem?]
      refine ⟨i, ?_⟩
      have hi : i < x.rows.length := (List.getElem?_eq_some_iff.mp hp).1
      rw [List.getElem?_zip_eq_some]
      exact ⟨hp, List.getElem?_range (by simpa [DMat.nrows] using hi)⟩
    rcases hF _ hmem with h | h
    · have h1 : entryKey nrm q (p, i) ∈ res' ++ D := hD.mem_iff.mpr (List.mem_map_of_mem h)
      rcases List.mem_append.mp h1 with h1 | h1
      · exact absurd (List.mem_map.mpr ⟨_, h1, rfl⟩) hni
      · refine (hle e he _ h1).trans (WithTop.coe_le_coe.mpr ?_)
        have := mul_le_mul_of_nonneg_right hc1 (hpos (List.zipWith (· - ·) p q))
        rwa [one_mul] at this
    · exact h e (by simpa using q2.mem_iff.mp he)

/-- A radius traversal with separate norms. -/
theorem radVisit_near {c : α} {nrmP nrm : List α → α} (x : List α) (hn : NearMonotone x.length c nrmP nrm) (radius : α) (t : T α) :
    Wide x.length t → Boxed t → (∀ e ∈ t.entries, e.1.length = x.length) →
    (∀ p ∈ t.leaves, p.2.length = p.1.length) → ∀ acc : List (α × Nat),
    ∃ V : List (List α × Nat), visit (radLeaf nrm x radius) (radTest nrmP x radius) t acc =
        .ok (acc ++ (V.map (radKey nrm x)).filter fun p => decide (p.1 ≤ radius)) ∧ V.Sublist t.entries ∧
      ∀ e ∈ t.entries, c * distance nrm e.1 x < radius → e ∈ V := by
  induction t with
  | leaf rows idx =>
    intro _ _ he hl acc
    have hi : idx.length = rows.length := hl (rows, idx) (by simp [T.leaves])
    have hrow : ∀ r ∈ rows, r.length = x.length :=
      leaf_rows rows idx x.length hi fun e h => he e (by simpa [T.entries, T.leaves] using h)
    refine ⟨rows.zip idx, radLeaf_ok nrm x radius rows idx hrow hi acc, by simp [T.entries, T.leaves], ?_⟩
    intro e he' _
    simpa [T.entries, T.leaves] using he'
  | branch lr rr l r ihl ihr =>
    intro hw hb he hl acc
    obtain ⟨⟨w1, w2, w3, w4⟩, wl, wr⟩ := hw
    obtain ⟨⟨b1, b2⟩, bl, br⟩ := hb
    have hel : ∀ e ∈ l.entries, e.1.length = x.length := fun e h => he e (by rw [T.entries_branch]; simp [h])
    have her : ∀ e ∈ r.entries, e.1.length = x.length := fun e h => he e (by rw [T.entries_branch]; simp [h])
    have hll : ∀ p ∈ l.leaves, p.2.length = p.1.length := fun p h => hl p (by simp [T.leaves, h])
    have hlr : ∀ p ∈ r.leaves, p.2.length = p.1.length := fun p h => hl p (by simp [T.leaves, h])
    obtain ⟨cl, hcl, hpl⟩ := check_near lr x hn radius w1 w2
    obtain ⟨cr, hcr, hpr⟩ := check_near rr x hn radius w3 w4
    have hright : ∃ V : List (List α × Nat), (if cr then visit (radLeaf nrm x radius) (radTest nrmP x radius) r acc else .ok acc) =
        .ok (acc ++ (V.map (radKey nrm x)).filter fun p => decide (p.1 ≤ radius)) ∧ V.Sublist r.entries ∧
        ∀ e ∈ r.entries, c * distance nrm e.1 x < radius → e ∈ V := by
      cases cr
      · refine ⟨[], by simp, by simp, ?_⟩
        intro e he' hd
        exact absurd (WithTop.coe_le_coe.mp (hpr rfl e.1 (her e he') (b2 e he'))) (not_le.mpr hd)
      · exact ihr wr br her hlr acc
    obtain ⟨V1, h1, h2, h3⟩ := hright
    have hleft : ∀ acc : List (α × Nat), ∃ V : List (List α × Nat),
        (if cl then visit (radLeaf nrm x radius) (radTest nrmP x radius) l acc else .ok acc) =
        .ok (acc ++ (V.map (radKey nrm x)).filter fun p => decide (p.1 ≤ radius)) ∧ V.Sublist l.entries ∧
        ∀ e ∈ l.entries, c * distance nrm e.1 x < radius → e ∈ V := by
      intro acc
      cases cl
      · refine ⟨[], by simp, by simp, ?_⟩
        intro e he' hd
        exact absurd (WithTop.coe_le_coe.mp (hpl rfl e.1 (hel e he') (b1 e he'))) (not_le.mpr hd)
      · exact ihl wl bl hel hll acc
    obtain ⟨V2, k1, k2, k3⟩ := hleft (acc ++ (V1.map (radKey nrm x)).filter fun p => decide (p.1 ≤ radius))
    refine ⟨V1 ++ V2, ?_, ?_, ?_⟩
    · simp only [visit, radTest, hcl, hcr, Res.bind_ok]
      rw [h1]
      simp only [Res.bind_ok]
      rw [k1]
      simp
    · rw [T.entries_branch]; exact h2.append k2
    · intro e he' hd
      rw [T.entries_branch] at he'
      rcases List.mem_append.mp he' with he' | he'
      · exact List.mem_append.mpr (Or.inl (h3 e he' hd))
      · exact List.mem_append.mpr (Or.inr (k3 e he' hd))

theorem radius_near (x : DMat α) (hx : x.WF) (leafSize : Nat) (nodes : List (Node α)) (hb : build x leafSize = .ok nodes)
    {c : α} {nrmP nrm : List α → α} (hn : NearMonotone x.ncols c nrmP nrm) (hw : FirstFeatureWidest x.ncols x.rows) (q : List α)
    (hq : q.length = x.ncols) (radius : α) :
    ∃ answer, radiusSingleWith nrmP nrm nodes q radius = .ok answer ∧ (answer.map Prod.snd).Nodup ∧
      (∀ e ∈ answer, e.1 ≤ radius ∧ ∃ p, x.rows[e.2]? = some p ∧ e.1 = distance nrm p q) ∧
      ∀ (i : Nat) (p : List α), x.rows[i]? = some p → distance nrm p q ≤ radius → c * distance nrm p q < radius →
        (distance nrm p q, i) ∈ answer := by
  obtain ⟨hc, h3, t, ht⟩ := kd_facts x hx leafSize nodes hb
  have hbox := ht.boxed (axis_zero x hx hc (by omega) hw)
  obtain ⟨V, hv, hsub, hcomp⟩ := radVisit_near q (hq ▸ hn) radius t (hq ▸ ht.wide) hbox
    (fun e he => by rw [hq]; exact kd_rows x hx leafSize nodes hb ht e he) (fun p hp => (ht.sizes p hp).2.2) []
  have hnd : (t.entries.map Prod.snd).Nodup := by
    have h1 := ht.entries.map Prod.snd
    rw [List.map_snd_zip (by simp [DMat.nrows])] at h1
    exact h1.nodup_iff.mpr List.nodup_range
  have hVmem : ∀ e ∈ V, x.rows[e.2]? = some e.1 := by
    intro e he
    obtain ⟨k, hk⟩ := List.getElem?_of_mem (ht.entries.mem_iff.mp (hsub.subset he))
    rw [List.getElem?_zip_eq_some] at hk
    obtain ⟨h1, h2⟩ := hk
    have hlt := (List.getElem?_eq_some_iff.mp h2).1
    rw [List.getElem?_range (by simpa using hlt), Option.some.injEq] at h2
    rw [← h2]
    exact h1
  rw [List.nil_append] at hv
  refine ⟨_, by rw [ht.flat]; exact radiusSingle_of_visit t q radius _ hv, ?_, ?_, ?_⟩
  · refine List.Nodup.sublist (List.Sublist.map _ List.filter_sublist) ?_
    rw [List.map_map]
    exact hnd.sublist (hsub.map _)
  · intro e he
    rw [List.mem_filter] at he
    obtain ⟨p, hp, rfl⟩ := List.mem_map.mp he.1
    exact ⟨by simpa using he.2, p.1, hVmem p hp, rfl⟩
  · intro i p hp hr hd
    have hmem : (p, i) ∈ t.entries := by
      rw [ht.entries.mem_iff, List.mem_iff_getElem?]
      refine ⟨i, ?_⟩
      have hi : i < x.rows.length := (List.getElem?_eq_some_iff.mp hp).1
      rw [List.getElem?_zip_eq_some]
      exact ⟨hp, List.getElem?_range (by simpa [DMat.nrows] using hi)⟩
    rw [List.mem_filter]
    exact ⟨List.mem_map.mpr ⟨(p, i), hcomp _ hmem hd, rfl⟩, by simpa using hr⟩

end OpenML.KDTree
