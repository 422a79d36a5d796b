import Verif.Lemmas.KDWalk
import Mathlib.Tactic.Linarith

set_option linter.unusedSectionVars false

namespace OpenML.KDTree
open Spec

variable {α : Type} [CommRing α] [LinearOrder α]

section Clamp
variable [IsStrictOrderedRing α]

theorem clamp_le (l h c v : α) (h1 : l ≤ v) (h2 : v ≤ h) :
    |(if (if h < c then h else c) < l then l else if h < c then h else c) - c| ≤ |v - c| := by
  by_cases hc : h < c
  · have : ¬ h < l := not_lt.mpr (h1.trans h2)
    simp only [hc, if_true, this, if_false]
    rw [abs_of_nonpos (by linarith), abs_of_nonpos (by linarith)]
    linarith
  · simp only [hc, if_false]
    by_cases hl : c < l
    · simp only [hl, if_true]
      rw [abs_of_nonneg (by linarith), abs_of_nonneg (by linarith)]
      linarith
    · simp [hl]

theorem InRect.tail {l h v : α} {lo hi row : List α} (hin : InRect ⟨l :: lo, h :: hi⟩ (v :: row)) :
    l ≤ v ∧ v ≤ h ∧ InRect ⟨lo, hi⟩ row := by
  refine ⟨(hin 0 v rfl).1 l rfl, (hin 0 v rfl).2 h rfl, ?_⟩
  intro j w hw
  have := hin (j + 1) w (by simpa using hw)
  simpa using this

theorem clampPoint_spec (lo hi x : List α) (h1 : lo.length = x.length) (h2 : hi.length = x.length) :
    ∃ c, clampPoint lo hi x = .ok c ∧ ∀ row, row.length = x.length → InRect ⟨lo, hi⟩ row →
      List.Forall₂ (fun a b => |a| ≤ |b|) (List.zipWith (· - ·) c x) (List.zipWith (· - ·) row x) := by
  induction x generalizing lo hi with
  | nil => exact ⟨[], by cases lo <;> cases hi <;> rfl, by simp⟩
  | cons c x ih =>
    match lo, hi, h1, h2 with
    | l :: lo, h :: hi, h1, h2 =>
      obtain ⟨cs, hcs, hall⟩ := ih lo hi (by simpa using h1) (by simpa using h2)
      refine ⟨(if (if h < c then h else c) < l then l else if h < c then h else c) :: cs,
        by simp only [clampPoint, hcs, Res.bind_ok], ?_⟩
      intro row hl hin
      match row, hl with
      | v :: row, hl =>
        obtain ⟨a1, a2, a3⟩ := hin.tail
        simp only [List.zipWith_cons_cons]
        exact List.Forall₂.cons (clamp_le l h c v a1 a2) (hall row (by simpa using hl) a3)

/-- The pruning test returns, and a negative answer means that no row of the rectangle is closer than the radius. -/
theorem check_spec {nrm : List α → α} (hn : MonotoneNorm nrm) (r : Rect α) (x : List α) (radius : WithTop α)
    (h1 : r.lo.length = x.length) (h2 : r.hi.length = x.length) :
    ∃ b, checkIntersection nrm r x radius = .ok b ∧ (b = false → ∀ row, row.length = x.length → InRect r row →
      radius ≤ (distance nrm row x : α)) := by
  obtain ⟨c, hc, hall⟩ := clampPoint_spec r.lo r.hi x h1 h2
  refine ⟨decide ((nrm (List.zipWith (· - ·) c x) : WithTop α) < radius), ?_, ?_⟩
  · simp [checkIntersection, hc]
  · intro hb row hl hin
    have hle := hn _ _ (hall row hl hin)
    simp only [decide_eq_false_iff_not, not_lt] at hb
    exact hb.trans (WithTop.coe_le_coe.mpr hle)

end Clamp

/-- Heap entry of a stored row. -/
def entryKey (nrm : List α → α) (x : List α) (e : List α × Nat) : WithTop α × Nat := ((distance nrm e.1 x : α), e.2)

theorem leafDistances_ok (nrm : List α → α) (data : List (List α)) (x : List α) (h : ∀ r ∈ data, r.length = x.length) :
    leafDistances nrm data x = .ok (data.map fun r => distance nrm r x) := by
  unfold leafDistances
  exact mapRes_ok fun r hr => by simp [h r hr, distance]

theorem computeDistance_ok (nrm : List α → α) (x : List α) (data : List (List α)) (indices : List Nat) (k : Nat)
    (h : ∀ r ∈ data, r.length = x.length) (h3 : 3 ≤ data.length) (hi : indices.length = data.length) :
    ∃ nn rest, computeDistance nrm x data indices k = .ok nn ∧
      (nn ++ rest).Perm ((data.zip indices).map (entryKey nrm x)) ∧ (k ≤ nn.length ∨ rest = []) ∧
      ∀ a ∈ nn, ∀ b ∈ rest, a.1 ≤ b.1 := by
  set ds := data.map fun r => distance nrm r x with hds
  obtain ⟨o, ho, hp, hs⟩ := argsortVec_ok ds (by simp [hds, h3])
  rw [hds, List.length_map] at hp
  set es := (data.zip indices).map (entryKey nrm x) with hes
  have hesl : es.length = data.length := by simp [hes, hi]
  have hlt : ∀ i ∈ o, i < data.length := fun i hi => List.mem_range.mp (hp.mem_iff.mp hi)
  have hol : o.length = data.length := by simpa using hp.length_eq
  have hget : ∀ i, i < data.length → ∃ (d : α) (j : Nat), ds[i]? = some d ∧ indices[i]? = some j ∧
      es[i]? = some ((d : WithTop α), j) := by
    intro i hlt
    refine ⟨distance nrm data[i] x, indices[i], ?_, ?_, ?_⟩
    · simp [hds, hlt]
    · simp [hi, hlt]
    · rw [hes, List.getElem?_map, List.getElem?_eq_getElem (by simp; omega)]
      simp [entryKey]
  have hmap : ∀ p : List Nat, (∀ i ∈ p, i < data.length) →
      mapRes (fun i => do
        let d ← readAt ds i
        let j ← readAt indices i
        Res.ok ((d : WithTop α), j)) p = .ok (p.filterMap (es[·]?)) := by
    intro p hpl
    induction p with
    | nil => rfl
    | cons i p ih =>
      obtain ⟨d, j, e1, e2, e3⟩ := hget i (hpl i (by simp))
      rw [mapRes, ih fun q hq => hpl q (by simp [hq]), List.filterMap_cons, e3]
      rw [readAt_eq_ok.mpr e1, readAt_eq_ok.mpr e2]
      rfl
  have hsorted : (o.filterMap (es[·]?)).Pairwise (fun a b => a.1 ≤ b.1) := by
    rw [List.pairwise_filterMap] at hs ⊢
    refine List.Pairwise.imp_of_mem ?_ hs
    intro i i' hi hi' hab e he e' he'
    obtain ⟨d, j, e1, e2, e3⟩ := hget i (hlt i hi)
    obtain ⟨d', j', e1', e2', e3'⟩ := hget i' (hlt i' hi')
    rw [e3] at he
    rw [e3'] at he'
    cases he
    cases he'
    exact WithTop.coe_le_coe.mpr (hab d e1 d' e1')
  set kk := if data.length ≤ k then data.length else k with hkk
  refine ⟨(o.take kk).filterMap (es[·]?), (o.drop kk).filterMap (es[·]?), ?_, ?_, ?_, ?_⟩
  · unfold computeDistance
    rw [leafDistances_ok nrm data x h]
    simp only [Res.bind_ok]
    rw [← hds, ho]
    simp only [Res.bind_ok]
    exact hmap _ fun i hi => hlt i (List.mem_of_mem_take hi)
  · rw [← List.filterMap_append, List.take_append_drop]
    exact Lists.gather_perm es o (by rw [hesl]; exact hp)
  · by_cases hk : data.length ≤ k
    · right
      have : kk = data.length := by rw [hkk, if_pos hk]
      rw [this, List.drop_of_length_le (by omega)]
      rfl
    · left
      have : kk = k := by rw [hkk, if_neg hk]
      rw [Lists.length_filterMap_idx _ _ (fun i hi => by rw [hesl]; exact hlt i (List.mem_of_mem_take hi)), this,
        List.length_take]
      omega
  · intro a ha b hb
    rw [← List.take_append_drop kk o, List.filterMap_append, List.pairwise_append] at hsorted
    exact hsorted.2.2 a ha b hb

theorem pushAll_spec {Q : PQueue (WithTop α × Nat)} (hQ : Q.Lawful Prod.fst) (k : Nat) (nn : List (WithTop α × Nat))
    (h : Q.σ) (A : List (WithTop α × Nat)) (hk : IsKSmallest Prod.fst k (Q.elems h) A) :
    IsKSmallest Prod.fst k (Q.elems (pushAll Q k nn h)) (A ++ nn) := by
  induction nn generalizing h A with
  | nil => simpa [pushAll] using hk
  | cons e nn ih =>
    obtain ⟨h1, h2⟩ := hk.push_pop hQ e
    simp only [pushAll]
    rw [if_pos h1]
    refine (ih _ _ h2).perm (List.Perm.refl _) ?_
    simpa using (List.perm_middle (a := e) (l₁ := A) (l₂ := nn)).symm

/-- A leaf is merged completely. -/
theorem nnLeaf_spec {nrm : List α → α} {Q : PQueue (WithTop α × Nat)} (hQ : Q.Lawful Prod.fst) (x : List α) (k : Nat)
    (data : List (List α)) (indices : List Nat) (h : ∀ r ∈ data, r.length = x.length) (h3 : 3 ≤ data.length)
    (hi : indices.length = data.length) (s : Q.σ) (A : List (WithTop α × Nat))
    (hk : IsKSmallest Prod.fst k (Q.elems s) A) :
    ∃ s', nnLeaf nrm Q x k data indices s = .ok s' ∧
      IsKSmallest Prod.fst k (Q.elems s') (A ++ (data.zip indices).map (entryKey nrm x)) := by
  obtain ⟨nn, rest, h1, h2, h3, h4⟩ := computeDistance_ok nrm x data indices k h h3 hi
  refine ⟨pushAll Q k nn s, by simp only [nnLeaf, h1, Res.bind_ok], ?_⟩
  have h5 := pushAll_spec hQ k nn s A hk
  have h6 : IsKSmallest Prod.fst k (Q.elems (pushAll Q k nn s)) (A ++ nn ++ rest) := by
    refine h5.add_large ?_
    intro y hy b hb
    rcases h3 with h3 | h3
    · exact h5.le_of_many (B := nn) (C := A) List.perm_append_comm h3 b.1 (fun a ha => h4 a ha b hb) y hy
    · subst h3; simp at hb
  refine h6.perm (List.Perm.refl _) ?_
  rw [List.append_assoc]
  exact h2.append_left A

theorem leaf_rows {β : Type} (rows : List (List β)) (idx : List Nat) (n : Nat) (hi : idx.length = rows.length)
    (h : ∀ e ∈ rows.zip idx, e.1.length = n) : ∀ r ∈ rows, r.length = n := by
  intro r hr
  obtain ⟨i, hi', rfl⟩ := List.getElem_of_mem hr
  refine h (rows[i], idx[i]) ?_
  have h : (rows.zip idx)[i]'(by simp; omega) = (rows[i], idx[i]) := by simp
  rw [← h]
  exact List.getElem_mem _

section Visit
variable [IsStrictOrderedRing α]

/-- The whole traversal on a tree whose rectangles are correct: the heap ends up with the `k` smallest. -/
theorem visit_exact {nrm : List α → α} (hn : MonotoneNorm nrm) {Q : PQueue (WithTop α × Nat)} (hQ : Q.Lawful Prod.fst)
    (x : List α) (k : Nat) (hk1 : 1 ≤ k) (t : T α) :
    Wide x.length t → Boxed t → (∀ e ∈ t.entries, e.1.length = x.length) →
    (∀ p ∈ t.leaves, 3 ≤ p.1.length ∧ p.2.length = p.1.length) → ∀ (s : Q.σ) (A : List (WithTop α × Nat)),
    IsKSmallest Prod.fst k (Q.elems s) A →
    ∃ s', visit (nnLeaf nrm Q x k) (nnTest nrm Q x) t s = .ok s' ∧
      IsKSmallest Prod.fst k (Q.elems s') (A ++ t.entries.map (entryKey nrm x)) := by
  induction t with
  | leaf rows idx =>
    intro _ _ he hl s A hA
    obtain ⟨h3, hi⟩ : 3 ≤ rows.length ∧ idx.length = rows.length := hl (rows, idx) (by simp [T.leaves])
    have hrow : ∀ r ∈ rows, r.length = x.length :=
      leaf_rows rows idx x.length hi fun e h => he e (by simpa [T.entries, T.leaves] using h)
    have := nnLeaf_spec (nrm := nrm) hQ x k rows idx hrow h3 hi s A hA
    simpa [visit, T.entries, T.leaves] using this
  | branch lr rr l r ihl ihr =>
    intro hw hb he hl s A hA
    obtain ⟨⟨w1, w2, w3, w4⟩, wl, wr⟩ := hw
    obtain ⟨⟨b1, b2⟩, bl, br⟩ := hb
    have hel : ∀ e ∈ l.entries, e.1.length = x.length := fun e h => he e (by rw [T.entries_branch]; simp [h])
    have her : ∀ e ∈ r.entries, e.1.length = x.length := fun e h => he e (by rw [T.entries_branch]; simp [h])
    have hll : ∀ p ∈ l.leaves, 3 ≤ p.1.length ∧ p.2.length = p.1.length := fun p h => hl p (by simp [T.leaves, h])
    have hlr : ∀ p ∈ r.leaves, 3 ≤ p.1.length ∧ p.2.length = p.1.length := fun p h => hl p (by simp [T.leaves, h])
    have hne : Q.elems s ≠ [] := by
      intro h0
      have := hA.1
      rw [h0] at this
      simp at this
      omega
    obtain ⟨m, hm, hmax, -⟩ := hQ.top_some s hne
    obtain ⟨cl, hcl, hpl⟩ := check_spec hn lr x m.1 w1 w2
    obtain ⟨cr, hcr, hpr⟩ := check_spec hn rr x m.1 w3 w4
    -- right subtree
    have hright : ∃ s1, (if cr then visit (nnLeaf nrm Q x k) (nnTest nrm Q x) r s else .ok s) = .ok s1 ∧
        IsKSmallest Prod.fst k (Q.elems s1) (A ++ r.entries.map (entryKey nrm x)) := by
      cases cr
      · refine ⟨s, rfl, hA.add_large ?_⟩
        intro y hy b hb
        obtain ⟨e, he', rfl⟩ := List.mem_map.mp hb
        exact (hmax y hy).trans (hpr rfl e.1 (her e he') (b2 e he'))
      · exact ihr wr br her hlr s A hA
    obtain ⟨s1, hs1, hA1⟩ := hright
    have hleft : ∃ s2, (if cl then visit (nnLeaf nrm Q x k) (nnTest nrm Q x) l s1 else .ok s1) = .ok s2 ∧
        IsKSmallest Prod.fst k (Q.elems s2) (A ++ r.entries.map (entryKey nrm x) ++ l.entries.map (entryKey nrm x)) := by
      cases cl
      · refine ⟨s1, rfl, hA1.add_large ?_⟩
        intro y hy b hb
        obtain ⟨e, he', rfl⟩ := List.mem_map.mp hb
        refine le_trans ?_ (hpl rfl e.1 (hel e he') (b1 e he'))
        obtain ⟨hlen, D, hD, -⟩ := hA
        exact hA1.le_of_many (B := Q.elems s) (C := D ++ r.entries.map (entryKey nrm x))
          (by rw [← List.append_assoc]; exact hD.append_right _) (by omega) m.1 hmax y hy
      · exact ihl wl bl hel hll s1 _ hA1
    obtain ⟨s2, hs2, hA2⟩ := hleft
    refine ⟨s2, ?_, ?_⟩
    · simp only [visit, nnTest, hm, hcl, hcr, Res.bind_ok]
      rw [hs1]
      exact hs2
    · rw [T.entries_branch, List.map_append, ← List.append_assoc]
      exact hA2

/-- Once the heap holds `k` elements with finite keys it keeps doing so. -/
theorem _root_.OpenML.IsKSmallest.finite_mono {Q : PQueue (WithTop α × Nat)} {k : Nat} {s s' : Q.σ} {A B : List (WithTop α × Nat)}
    (hQ : Q.Lawful Prod.fst) (hk1 : 1 ≤ k) (h : IsKSmallest Prod.fst k (Q.elems s) A)
    (h' : IsKSmallest Prod.fst k (Q.elems s') (A ++ B)) (hf : ∀ y ∈ Q.elems s, y.1 ≠ ⊤) : ∀ y ∈ Q.elems s', y.1 ≠ ⊤ := by
  have hne : Q.elems s ≠ [] := by
    intro h0
    have := h.1
    rw [h0] at this
    simp at this
    omega
  obtain ⟨m, hm, hmax, hp⟩ := hQ.top_some s hne
  obtain ⟨hlen, D, hD, -⟩ := h
  have hmf : m.1 ≠ ⊤ := hf m (hp.mem_iff.mp (by simp))
  intro y hy
  have := h'.le_of_many (B := Q.elems s) (C := D ++ B) (by rw [← List.append_assoc]; exact hD.append_right _)
    (by omega) m.1 hmax y hy
  exact ne_top_of_le_ne_top hmf this

/-- Without any assumption on the rectangles the heap holds the `k` smallest of the rows visited, and rows are skipped only
when `k` rows have been found. -/
theorem visit_sound {nrm : List α → α} (hn : MonotoneNorm nrm) {Q : PQueue (WithTop α × Nat)} (hQ : Q.Lawful Prod.fst)
    (x : List α) (k : Nat) (hk1 : 1 ≤ k) (t : T α) :
    Wide x.length t → (∀ e ∈ t.entries, e.1.length = x.length) →
    (∀ p ∈ t.leaves, 3 ≤ p.1.length ∧ p.2.length = p.1.length) → ∀ (s : Q.σ) (A : List (WithTop α × Nat)),
    IsKSmallest Prod.fst k (Q.elems s) A →
    ∃ (s' : Q.σ) (V : List (List α × Nat)), visit (nnLeaf nrm Q x k) (nnTest nrm Q x) t s = .ok s' ∧ V.Sublist t.entries ∧
      IsKSmallest Prod.fst k (Q.elems s') (A ++ V.map (entryKey nrm x)) ∧
      (V = t.entries ∨ ∀ y ∈ Q.elems s', y.1 ≠ ⊤) := by
  induction t with
  | leaf rows idx =>
    intro _ he hl s A hA
    obtain ⟨h3, hi⟩ : 3 ≤ rows.length ∧ idx.length = rows.length := hl (rows, idx) (by simp [T.leaves])
    have hrow : ∀ r ∈ rows, r.length = x.length :=
      leaf_rows rows idx x.length hi fun e h => he e (by simpa [T.entries, T.leaves] using h)
    obtain ⟨s', h1, h2⟩ := nnLeaf_spec (nrm := nrm) hQ x k rows idx hrow h3 hi s A hA
    exact ⟨s', rows.zip idx, h1, by simp [T.entries, T.leaves], h2, Or.inl (by simp [T.entries, T.leaves])⟩
  | branch lr rr l r ihl ihr =>
    intro hw he hl s A hA
    obtain ⟨⟨w1, w2, w3, w4⟩, wl, wr⟩ := hw
    have hel : ∀ e ∈ l.entries, e.1.length = x.length := fun e h => he e (by rw [T.entries_branch]; simp [h])
    have her : ∀ e ∈ r.entries, e.1.length = x.length := fun e h => he e (by rw [T.entries_branch]; simp [h])
    have hll : ∀ p ∈ l.leaves, 3 ≤ p.1.length ∧ p.2.length = p.1.length := fun p h => hl p (by simp [T.leaves, h])
    have hlr : ∀ p ∈ r.leaves, 3 ≤ p.1.length ∧ p.2.length = p.1.length := fun p h => hl p (by simp [T.leaves, h])
    have hne : Q.elems s ≠ [] := by
      intro h0
      have := hA.1
      rw [h0] at this
      simp at this
      omega
    obtain ⟨m, hm, hmax, -⟩ := hQ.top_some s hne
    obtain ⟨cl, hcl, -⟩ := check_spec hn lr x m.1 w1 w2
    obtain ⟨cr, hcr, -⟩ := check_spec hn rr x m.1 w3 w4
    have hfin : ∀ rect : Rect α, checkIntersection nrm rect x m.1 = .ok false → ∀ y ∈ Q.elems s, y.1 ≠ ⊤ := by
      intro rect hc y hy
      simp only [checkIntersection, Res.bind_eq_ok] at hc
      obtain ⟨c, -, hc⟩ := hc
      simp only [Res.ok.injEq, decide_eq_false_iff_not, not_lt] at hc
      exact ne_top_of_le_ne_top (ne_top_of_le_ne_top WithTop.coe_ne_top hc) (hmax y hy)
    have hright : ∃ (s1 : Q.σ) (V : List (List α × Nat)),
        (if cr then visit (nnLeaf nrm Q x k) (nnTest nrm Q x) r s else .ok s) = .ok s1 ∧
        V.Sublist r.entries ∧ IsKSmallest Prod.fst k (Q.elems s1) (A ++ V.map (entryKey nrm x)) ∧
        (V = r.entries ∨ ∀ y ∈ Q.elems s1, y.1 ≠ ⊤) := by
      cases cr
      · exact ⟨s, [], rfl, by simp, by simpa using hA, Or.inr (hfin rr hcr)⟩
      · exact ihr wr her hlr s A hA
    obtain ⟨s1, V1, hs1, hV1, hA1, hF1⟩ := hright
    have hleft : ∃ (s2 : Q.σ) (V : List (List α × Nat)),
        (if cl then visit (nnLeaf nrm Q x k) (nnTest nrm Q x) l s1 else .ok s1) = .ok s2 ∧
        V.Sublist l.entries ∧
        IsKSmallest Prod.fst k (Q.elems s2) (A ++ V1.map (entryKey nrm x) ++ V.map (entryKey nrm x)) ∧
        (V = l.entries ∨ ∀ y ∈ Q.elems s2, y.1 ≠ ⊤) := by
      cases cl
      · exact ⟨s1, [], rfl, by simp, by simpa using hA1, Or.inr (hA.finite_mono hQ hk1 hA1 (hfin lr hcl))⟩
      · exact ihl wl hel hll s1 _ hA1
    obtain ⟨s2, V2, hs2, hV2, hA2, hF2⟩ := hleft
    refine ⟨s2, V1 ++ V2, ?_, ?_, ?_, ?_⟩
    · simp only [visit, nnTest, hm, hcl, hcr, Res.bind_ok]
      rw [hs1]
      exact hs2
    · rw [T.entries_branch]; exact hV1.append hV2
    · rw [List.map_append, ← List.append_assoc]
      exact hA2
    · rcases hF2 with rfl | hF2
      · rcases hF1 with rfl | hF1
        · exact Or.inl (T.entries_branch _ _ _ _).symm
        · exact Or.inr (hA1.finite_mono hQ hk1 hA2 hF1)
      · exact Or.inr hF2

end Visit

theorem initHeap_spec {Q : PQueue (WithTop α × Nat)} (hQ : Q.Lawful Prod.fst) (k : Nat) :
    IsKSmallest Prod.fst k (Q.elems (initHeap Q k)) (List.replicate k ((⊤ : WithTop α), 0)) := by
  have : (Q.elems (initHeap Q k)).Perm (List.replicate k ((⊤ : WithTop α), 0)) := by
    induction k with
    | zero => simp [initHeap, hQ.elems_empty]
    | succ k ih =>
      rw [List.replicate_succ]
      exact (hQ.elems_push _ _).trans (ih.cons _)
  exact ⟨by simpa using this.length_eq, [], by simpa using this, by simp⟩

theorem drain_spec {Q : PQueue (WithTop α × Nat)} (hQ : Q.Lawful Prod.fst) (n : Nat) :
    ∀ (h : Q.σ) (acc : List (WithTop α × Nat)), (Q.elems h).length = n → acc.Pairwise (fun a b => a.1 ≤ b.1) →
      (∀ e ∈ Q.elems h, ∀ a ∈ acc, e.1 ≤ a.1) →
      ∃ res, drain Q n h acc = .ok res ∧ res.Perm (Q.elems h ++ acc) ∧ res.Pairwise (fun a b => a.1 ≤ b.1) := by
  induction n with
  | zero =>
    intro h acc hl hs _
    refine ⟨acc, rfl, ?_, hs⟩
    rw [List.length_eq_zero_iff.mp hl]
    exact List.Perm.refl _
  | succ n ih =>
    intro h acc hl hs hle
    obtain ⟨m, hm, hmax, hperm⟩ := hQ.top_some h (by intro h0; rw [h0] at hl; simp at hl)
    obtain ⟨res, h1, h2, h3⟩ := ih (Q.pop h) (m :: acc)
      (by have := hperm.length_eq; rw [List.length_cons, hl] at this; omega)
      (by
        rw [List.pairwise_cons]
        exact ⟨fun a ha => hle m (hperm.mem_iff.mp (by simp)) a ha, hs⟩)
      (by
        intro e he a ha
        have he' : e ∈ Q.elems h := hperm.mem_iff.mp (by simp [he])
        rcases List.mem_cons.mp ha with rfl | ha
        · exact hmax e he'
        · exact hle e he' a ha)
    refine ⟨res, by simp only [drain, hm]; exact h1, ?_, h3⟩
    refine h2.trans ?_
    exact (List.perm_middle).trans (hperm.append_right acc)

/-- A neighbour query on a stored tree returns whatever the traversal leaves in the heap, sorted. -/
theorem querySingle_of_visit {nrmP nrm : List α → α} {Q : PQueue (WithTop α × Nat)} (hQ : Q.Lawful Prod.fst) (t : T α)
    (x : List α) (k : Nat) (s : Q.σ) (A : List (WithTop α × Nat))
    (hv : visit (nnLeaf nrm Q x k) (nnTest nrmP Q x) t (initHeap Q k) = .ok s)
    (hA : IsKSmallest Prod.fst k (Q.elems s) A) :
    ∃ res, querySingleWith nrmP nrm Q (t.flat 0) x k = .ok res ∧ res.Pairwise (fun a b => a.1 ≤ b.1) ∧
      IsKSmallest Prod.fst k res A := by
  obtain ⟨res, h1, h2, h3⟩ := drain_spec hQ k s [] hA.1 List.Pairwise.nil (by simp)
  refine ⟨res, ?_, h3, hA.perm (by simpa using h2.symm) (List.Perm.refl _)⟩
  unfold querySingleWith
  rw [T.flat_head]
  simp only
  rw [queryLoop_eq, walk_root _ _ t _ s hv]
  exact h1

/-! ## radius queries -/

theorem selectWithin_ok (radius : α) (ds : List α) (is : List Nat) (h : is.length = ds.length) :
    selectWithin radius ds is = .ok ((ds.zip is).filter fun p => decide (p.1 ≤ radius)) := by
  induction ds generalizing is with
  | nil => simp [selectWithin]
  | cons d ds ih =>
    match is, h with
    | i :: is, h =>
      simp only [selectWithin, List.tail_cons, ih is (by simpa using h), Res.bind_ok, List.zip_cons_cons]
      by_cases hd : d ≤ radius <;> simp [hd]

/-- Reported pair of a stored row. -/
def radKey (nrm : List α → α) (x : List α) (e : List α × Nat) : α × Nat := (distance nrm e.1 x, e.2)

theorem radLeaf_ok (nrm : List α → α) (x : List α) (radius : α) (data : List (List α)) (indices : List Nat)
    (h : ∀ r ∈ data, r.length = x.length) (hi : indices.length = data.length) (acc : List (α × Nat)) :
    radLeaf nrm x radius data indices acc =
      .ok (acc ++ ((data.zip indices).map (radKey nrm x)).filter fun p => decide (p.1 ≤ radius)) := by
  unfold radLeaf
  rw [leafDistances_ok nrm data x h]
  simp only [Res.bind_ok]
  rw [selectWithin_ok _ _ _ (by simpa using hi)]
  simp only [Res.bind_ok]
  rw [List.zip_map_left]
  rfl

section RadVisit
variable [IsStrictOrderedRing α]

/-- What a radius traversal reports: hits among a sublist `V` of the stored rows; with correct rectangles `V` contains every
row strictly inside the radius. -/
theorem radVisit_spec {nrm : List α → α} (hn : MonotoneNorm nrm) (x : List α) (radius : α) (t : T α) :
    Wide x.length t → (∀ e ∈ t.entries, e.1.length = x.length) →
    (∀ p ∈ t.leaves, p.2.length = p.1.length) → ∀ acc : List (α × Nat),
    ∃ V : List (List α × Nat), visit (radLeaf nrm x radius) (radTest nrm x radius) t acc =
        .ok (acc ++ (V.map (radKey nrm x)).filter fun p => decide (p.1 ≤ radius)) ∧ V.Sublist t.entries ∧
      (Boxed t → ∀ e ∈ t.entries, distance nrm e.1 x < radius → e ∈ V) := by
  induction t with
  | leaf rows idx =>
    intro _ he hl acc
    have hi : idx.length = rows.length := hl (rows, idx) (by simp [T.leaves])
    have hrow : ∀ r ∈ rows, r.length = x.length :=
      leaf_rows rows idx x.length hi fun e h => he e (by simpa [T.entries, T.leaves] using h)
    refine ⟨rows.zip idx, radLeaf_ok nrm x radius rows idx hrow hi acc, by simp [T.entries, T.leaves], ?_⟩
    intro _ e he' _
    simpa [T.entries, T.leaves] using he'
  | branch lr rr l r ihl ihr =>
    intro hw he hl acc
    obtain ⟨⟨w1, w2, w3, w4⟩, wl, wr⟩ := hw
    have hel : ∀ e ∈ l.entries, e.1.length = x.length := fun e h => he e (by rw [T.entries_branch]; simp [h])
    have her : ∀ e ∈ r.entries, e.1.length = x.length := fun e h => he e (by rw [T.entries_branch]; simp [h])
    have hll : ∀ p ∈ l.leaves, p.2.length = p.1.length := fun p h => hl p (by simp [T.leaves, h])
    have hlr : ∀ p ∈ r.leaves, p.2.length = p.1.length := fun p h => hl p (by simp [T.leaves, h])
    obtain ⟨cl, hcl, hpl⟩ := check_spec hn lr x radius w1 w2
    obtain ⟨cr, hcr, hpr⟩ := check_spec hn rr x radius w3 w4
    have hright : ∃ V : List (List α × Nat), (if cr then visit (radLeaf nrm x radius) (radTest nrm x radius) r acc else .ok acc) =
        .ok (acc ++ (V.map (radKey nrm x)).filter fun p => decide (p.1 ≤ radius)) ∧ V.Sublist r.entries ∧
        (Boxed (T.branch lr rr l r) → ∀ e ∈ r.entries, distance nrm e.1 x < radius → e ∈ V) := by
      cases cr
      · refine ⟨[], by simp, by simp, ?_⟩
        intro hb e he' hd
        exact absurd (WithTop.coe_le_coe.mp (hpr rfl e.1 (her e he') (hb.1.2 e he'))) (not_le.mpr hd)
      · obtain ⟨V, h1, h2, h3⟩ := ihr wr her hlr acc
        exact ⟨V, h1, h2, fun hb => h3 hb.2.2⟩
    obtain ⟨V1, h1, h2, h3⟩ := hright
    have hleft : ∀ acc : List (α × Nat), ∃ V : List (List α × Nat),
        (if cl then visit (radLeaf nrm x radius) (radTest nrm x radius) l acc else .ok acc) =
        .ok (acc ++ (V.map (radKey nrm x)).filter fun p => decide (p.1 ≤ radius)) ∧ V.Sublist l.entries ∧
        (Boxed (T.branch lr rr l r) → ∀ e ∈ l.entries, distance nrm e.1 x < radius → e ∈ V) := by
      intro acc
      cases cl
      · refine ⟨[], by simp, by simp, ?_⟩
        intro hb e he' hd
        exact absurd (WithTop.coe_le_coe.mp (hpl rfl e.1 (hel e he') (hb.1.1 e he'))) (not_le.mpr hd)
      · obtain ⟨V, h1, h2, h3⟩ := ihl wl hel hll acc
        exact ⟨V, h1, h2, fun hb => h3 hb.2.1⟩
    obtain ⟨V2, k1, k2, k3⟩ := hleft (acc ++ (V1.map (radKey nrm x)).filter fun p => decide (p.1 ≤ radius))
    refine ⟨V1 ++ V2, ?_, ?_, ?_⟩
    · simp only [visit, radTest, hcl, hcr, Res.bind_ok]
      rw [h1]
      simp only [Res.bind_ok]
      rw [k1]
      simp
    · rw [T.entries_branch]; exact h2.append k2
    · intro hb e he' hd
      rw [T.entries_branch] at he'
      rcases List.mem_append.mp he' with he' | he'
      · exact List.mem_append.mpr (Or.inl (h3 hb e he' hd))
      · exact List.mem_append.mpr (Or.inr (k3 hb e he' hd))

end RadVisit

theorem radiusSingle_of_visit {nrmP nrm : List α → α} (t : T α) (x : List α) (radius : α) (res : List (α × Nat))
    (hv : visit (radLeaf nrm x radius) (radTest nrmP x radius) t [] = .ok res) :
    radiusSingleWith nrmP nrm (t.flat 0) x radius = .ok res := by
  unfold radiusSingleWith
  rw [T.flat_head]
  simp only
  rw [radiusLoop_eq, walk_root _ _ t _ res hv]

end OpenML.KDTree
