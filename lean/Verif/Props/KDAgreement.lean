import Verif.Props.KDTree

/-!
# C129: answers of the KD-tree that do not depend on how it was built
-/

namespace OpenML

open Spec KDTree

namespace KDAgreement

variable {α : Type} [CommRing α] [LinearOrder α] [IsStrictOrderedRing α]

theorem insertionSort_coe (l : List α) : (l.map ((↑) : α → WithTop α)).insertionSort (· ≤ ·) =
    (l.insertionSort (· ≤ ·)).map ((↑) : α → WithTop α) := by
  refine List.Perm.eq_of_pairwise' (r := (· ≤ ·)) (List.pairwise_insertionSort _ _) ?_ ?_
  · rw [List.pairwise_map]
    exact (List.pairwise_insertionSort _ _).imp fun h => WithTop.coe_le_coe.mpr h
  · exact (List.perm_insertionSort _ _).trans ((List.perm_insertionSort _ _).symm.map _)

theorem allEntries_fst (nrm : List α → α) (rows : List (List α)) (x : List α) :
    (allEntries nrm rows x).map Prod.fst = (rows.map fun p => distance nrm p x).map ((↑) : α → WithTop α) := by
  refine List.ext_getElem? fun i => ?_
  rw [List.getElem?_map, getElem?_allEntries, List.getElem?_map, List.getElem?_map]
  cases rows[i]? <;> rfl

theorem fst_eq {nrm : List α → α} {rows : List (List α)} {x : List α} {k : Nat} {a : List (WithTop α × Nat)}
    (h : IsKNearest nrm rows x k a) : a.map Prod.fst = (nearestDistances nrm rows x k).map ((↑) : α → WithTop α) := by
  have hn : ((allEntries nrm rows x).map Prod.snd).Nodup := by rw [allEntries_snd]; exact List.nodup_range
  have hall : (allEntries nrm rows x).Nodup := hn.of_map
  have ha : a.Nodup := h.distinct.of_map
  have hmem : ∀ e ∈ a, e ∈ allEntries nrm rows x := by
    rintro ⟨d, i⟩ he
    obtain ⟨p, hp, hd⟩ := h.true_distance _ he
    refine List.mem_of_getElem? (i := i) ?_
    rw [getElem?_allEntries, hp]
    simpa using hd.symm
  have hperm : (a ++ (allEntries nrm rows x).filter fun e => !decide (e ∈ a)).Perm (allEntries nrm rows x) := by
    refine List.Perm.trans (List.Perm.append_right _ ?_) (List.filter_append_perm (fun e => decide (e ∈ a)) _)
    refine (List.perm_ext_iff_of_nodup ha (hall.filter _)).mpr fun e => ?_
    simp only [List.mem_filter, decide_eq_true_eq]
    exact ⟨fun he => ⟨hmem e he, he⟩, fun he => he.2⟩
  have hle : ∀ e ∈ a, ∀ d ∈ (allEntries nrm rows x).filter fun e => !decide (e ∈ a), e.1 ≤ d.1 := by
    rintro e he ⟨d, i⟩ hd
    simp only [List.mem_filter, Bool.not_eq_true', decide_eq_false_iff_not] at hd
    obtain ⟨p, hp, hpd⟩ := mem_allEntries nrm rows x _ hd.1
    have hi : i ∉ a.map Prod.snd := by
      intro hi
      obtain ⟨⟨d', i'⟩, h1, rfl⟩ := List.mem_map.mp hi
      obtain ⟨p', hp', hpd'⟩ := h.true_distance _ h1
      dsimp only at hp' hpd' hp hpd hd
      rw [hp] at hp'
      cases hp'
      rw [hpd] at hd
      rw [hpd'] at h1
      exact hd.2 h1
    have := h.nearest i p hp hi e he
    dsimp only at hpd ⊢
    rwa [hpd]
  generalize hD : (allEntries nrm rows x).filter (fun e => !decide (e ∈ a)) = D at hperm hle
  have hsort : ((allEntries nrm rows x).map Prod.fst).insertionSort (· ≤ ·) =
      a.map Prod.fst ++ (D.map Prod.fst).insertionSort (· ≤ ·) := by
    refine List.Perm.eq_of_pairwise' (r := (· ≤ ·)) (List.pairwise_insertionSort _ _) ?_ ?_
    · rw [List.pairwise_append]
      refine ⟨List.pairwise_map.mpr h.sorted, List.pairwise_insertionSort _ _, ?_⟩
      intro u hu v hv
      obtain ⟨e, he, rfl⟩ := List.mem_map.mp hu
      obtain ⟨d, hd, rfl⟩ := List.mem_map.mp ((List.mem_insertionSort _).mp hv)
      exact hle e he d hd
    · refine (List.perm_insertionSort _ _).trans ?_
      refine (hperm.symm.map _).trans ?_
      rw [List.map_append]
      exact (List.perm_insertionSort _ _).symm.append_left _
  rw [allEntries_fst, insertionSort_coe] at hsort
  unfold nearestDistances
  rw [List.map_take, hsort, List.take_left' (by rw [List.length_map, h.length])]

theorem nearestDistances_perm (nrm : List α → α) {rows rows' : List (List α)} (h : rows.Perm rows') (x : List α) (k : Nat) :
    nearestDistances nrm rows x k = nearestDistances nrm rows' x k := by
  unfold nearestDistances
  congr 1
  refine List.Perm.eq_of_pairwise' (r := (· ≤ ·)) (List.pairwise_insertionSort _ _) (List.pairwise_insertionSort _ _) ?_
  exact (List.perm_insertionSort _ _).trans ((h.map _).trans (List.perm_insertionSort _ _).symm)

theorem firstFeatureWidest_perm {n : Nat} {rows rows' : List (List α)} (h : rows.Perm rows') (hw : FirstFeatureWidest n rows) :
    FirstFeatureWidest n rows' := by
  intro j hj p hp q hq a b ha hb
  obtain ⟨p', hp', q', hq', r⟩ := hw j hj p (h.mem_iff.mpr hp) q (h.mem_iff.mpr hq) a b ha hb
  exact ⟨p', h.mem_iff.mp hp', q', h.mem_iff.mp hq', r⟩

theorem getElem?_mem_map_snd {nrm : List α → α} {rows : List (List α)} {x : List α} {k : Nat} {a : List (WithTop α × Nat)}
    (h : IsKNearest nrm rows x k a) (i : Nat) (hi : i ∈ a.map Prod.snd) : ∃ p, rows[i]? = some p ∧ ((distance nrm p x : α) : WithTop α) ∈
      a.map Prod.fst ∧ (((distance nrm p x : α) : WithTop α), i) ∈ a := by
  obtain ⟨⟨d, i'⟩, h1, rfl⟩ := List.mem_map.mp hi
  obtain ⟨p, hp, hd⟩ := h.true_distance _ h1
  dsimp only at hp hd
  rw [hd] at h1
  exact ⟨p, hp, List.mem_map.mpr ⟨_, h1, rfl⟩, h1⟩

/-- If all rows have different distances, the answer is determined. -/
theorem answer_unique {nrm : List α → α} {rows : List (List α)} {x : List α} {k : Nat} {a b : List (WithTop α × Nat)}
    (hd : (rows.map fun p => distance nrm p x).Nodup) (ha : IsKNearest nrm rows x k a) (hb : IsKNearest nrm rows x k b) : a = b := by
  have h := (fst_eq ha).trans (fst_eq hb).symm
  have hinj : ∀ e ∈ a, ∀ e' ∈ b, e.1 = e'.1 → e = e' := by
    rintro ⟨d, i⟩ h1 ⟨d', i'⟩ h2 rfl
    obtain ⟨p, hp, e1⟩ := ha.true_distance _ h1
    obtain ⟨p', hp', e2⟩ := hb.true_distance _ h2
    dsimp only at hp hp' e1 e2
    rw [e1] at e2
    have e3 := WithTop.coe_injective e2
    have hl := (List.getElem?_eq_some_iff.mp hp).1
    have h3 : (rows.map fun p => distance nrm p x)[i]? = (rows.map fun p => distance nrm p x)[i']? := by
      rw [List.getElem?_map, List.getElem?_map, hp, hp', Option.map_some, Option.map_some, e3]
    rw [(List.getElem?_inj (by simpa using hl) hd).mp h3]
  refine List.ext_getElem (by rw [ha.length, hb.length]) fun j h1 h2 => ?_
  refine hinj _ (List.getElem_mem h1) _ (List.getElem_mem h2) ?_
  have := congrArg (fun l => l[j]?) h
  simp only [List.getElem?_map, List.getElem?_eq_getElem h1, List.getElem?_eq_getElem h2, Option.map_some, Option.some.injEq] at this
  exact this

end KDAgreement

open KDAgreement

variable {α : Type} [CommRing α] [LinearOrder α] [IsStrictOrderedRing α]

/-- C129: the distances reported by `query` are the `k` smallest distances to the rows, in increasing order: they depend neither on
the leaf size, nor on the order of the rows, nor on how the priority queue breaks ties. Here for two trees over the same rows in
any order. -/
theorem C129_agree (x x' : DMat α) (hx : x.WF) (hx' : x'.WF) (hrows : x.rows.Perm x'.rows) (hcols : x.ncols = x'.ncols)
    (leafSize leafSize' : Nat) (nodes nodes' : List (Node α)) (hb : build x leafSize = .ok nodes) (hb' : build x' leafSize' = .ok nodes')
    (hthree : ∀ p ∈ kdLeaves nodes, 3 ≤ p.1.length) (hthree' : ∀ p ∈ kdLeaves nodes', 3 ≤ p.1.length)
    {nrm : List α → α} (hn : MonotoneNorm nrm) {Q Q' : PQueue (WithTop α × Nat)} (hQ : Q.Lawful Prod.fst) (hQ' : Q'.Lawful Prod.fst)
    (hw : FirstFeatureWidest x.ncols x.rows) (q : List α) (hq : q.length = x.ncols) (k k' : Nat) (hk : 1 ≤ k) (hkk : k ≤ k')
    (hkn : k' ≤ x.nrows) :
    ∃ a a', querySingle nrm Q nodes q k = .ok a ∧ querySingle nrm Q' nodes' q k' = .ok a' ∧
      a.map Prod.fst = (nearestDistances nrm x.rows q k).map ((↑) : α → WithTop α) ∧
      a.map Prod.fst = (a'.map Prod.fst).take k ∧
      ((x.rows.map fun p => distance nrm p q).Nodup → x.rows = x'.rows → k = k' → a = a') := by
  obtain ⟨a, h1, h2, h3⟩ := kd_query_exact x hx leafSize nodes hb hthree hn hQ hw q hq k hk
  have ha := isKNearest_of_smallest nrm x.rows q k (hkk.trans hkn) a h2 h3
  obtain ⟨a', h1', h2', h3'⟩ := kd_query_exact x' hx' leafSize' nodes' hb' hthree' hn hQ'
    (by rw [← hcols]; exact firstFeatureWidest_perm hrows hw) q (hq.trans hcols) k' (hk.trans hkk)
  have ha' := isKNearest_of_smallest nrm x'.rows q k' (hkn.trans (le_of_eq hrows.length_eq)) a' h2' h3'
  refine ⟨a, a', h1, h1', fst_eq ha, ?_, ?_⟩
  · rw [fst_eq ha, fst_eq ha', ← nearestDistances_perm nrm hrows]
    unfold nearestDistances
    rw [← List.map_take, List.take_take, Nat.min_eq_left hkk]
  · intro hd he hkk
    subst hkk
    rw [← he] at ha'
    exact answer_unique hd ha ha'

/-- C129: asked for a row of the data, `query` reports the distance of a point to itself first. -/
theorem C129_self (x : DMat α) (hx : x.WF) (leafSize : Nat) (nodes : List (Node α)) (hb : build x leafSize = .ok nodes)
    (hthree : ∀ p ∈ kdLeaves nodes, 3 ≤ p.1.length) {nrm : List α → α} (hn : MonotoneNorm nrm) {Q : PQueue (WithTop α × Nat)}
    (hQ : Q.Lawful Prod.fst) (hw : FirstFeatureWidest x.ncols x.rows) (i : Nat) (q : List α) (hq : x.rows[i]? = some q) (k : Nat)
    (hk : 1 ≤ k) (hkn : k ≤ x.nrows) :
    ∃ j rest, querySingle nrm Q nodes q k = .ok ((((distance nrm q q : α) : WithTop α), j) :: rest) ∧
      ((∀ (i' : Nat) (p : List α), x.rows[i']? = some p → i' ≠ i → distance nrm q q < distance nrm p q) → j = i) := by
  obtain ⟨a, h1, h2, h3⟩ := kd_query_exact x hx leafSize nodes hb hthree hn hQ hw q (hx q (List.mem_of_getElem? hq)) k hk
  have ha := isKNearest_of_smallest nrm x.rows q k hkn a h2 h3
  match a, ha.length with
  | [], h => simp at h; omega
  | (d, j) :: rest, _ =>
    have hmin : ∀ p ∈ x.rows, distance nrm q q ≤ distance nrm p q := by
      intro p hp
      refine hn _ _ ?_
      have e1 := hx q (List.mem_of_getElem? hq)
      have e2 := hx p hp
      rw [List.forall₂_iff_get]
      refine ⟨by simp [e1, e2], fun m h1 h2 => ?_⟩
      simp
    have hd : d = ((distance nrm q q : α) : WithTop α) := by
      obtain ⟨p, hp, e1⟩ := ha.true_distance _ (List.mem_cons_self ..)
      dsimp only at hp e1
      refine le_antisymm ?_ (by rw [e1]; exact WithTop.coe_le_coe.mpr (hmin p (List.mem_of_getElem? hp)))
      by_cases hi : i ∈ ((d, j) :: rest).map Prod.snd
      · obtain ⟨p', hp', _, e2⟩ := getElem?_mem_map_snd ha i hi
        rw [hq] at hp'
        cases hp'
        rcases List.mem_cons.mp e2 with e2 | e2
        · exact le_of_eq (Prod.mk.inj e2).1.symm
        · exact (List.pairwise_cons.mp h2).1 _ e2
      · exact ha.nearest i q hq hi _ (List.mem_cons_self ..)
    refine ⟨j, rest, by rw [h1, hd], fun huniq => ?_⟩
    by_contra hne
    obtain ⟨p, hp, e1⟩ := ha.true_distance _ (List.mem_cons_self ..)
    dsimp only at hp e1
    have := huniq j p hp hne
    rw [hd] at e1
    rw [WithTop.coe_injective e1] at this
    exact absurd this (lt_irrefl _)

/-- C129: every neighbour reported by `query` that lies strictly inside a radius is also reported by the radius query, with the same
distance; and the radius query reports at least as many rows as lie strictly inside. -/
theorem C129_radius (x : DMat α) (hx : x.WF) (leafSize leafSize' : Nat) (nodes nodes' : List (Node α))
    (hb : build x leafSize = .ok nodes) (hb' : build x leafSize' = .ok nodes')
    (hthree : ∀ p ∈ kdLeaves nodes, 3 ≤ p.1.length) {nrm : List α → α} (hn : MonotoneNorm nrm) {Q : PQueue (WithTop α × Nat)}
    (hQ : Q.Lawful Prod.fst) (hw : FirstFeatureWidest x.ncols x.rows) (q : List α) (hq : q.length = x.ncols) (k : Nat) (hk : 1 ≤ k)
    (hkn : k ≤ x.nrows) (radius : α) :
    ∃ a r, querySingle nrm Q nodes q k = .ok a ∧ radiusSingle nrm nodes' q radius = .ok r ∧
      (∀ (d : α) (i : Nat), ((d : WithTop α), i) ∈ a → d < radius → (d, i) ∈ r) ∧
      (∀ (d : α) (i : Nat), (d, i) ∈ r → ((d : WithTop α), i) ∈ a ∨ ∀ e ∈ a, e.1 ≤ (d : WithTop α)) := by
  obtain ⟨a, h1, h2, h3⟩ := kd_query_exact x hx leafSize nodes hb hthree hn hQ hw q hq k hk
  have ha := isKNearest_of_smallest nrm x.rows q k hkn a h2 h3
  obtain ⟨r, r1, r2, r3, r4⟩ := C18_radius x hx leafSize' nodes' hb' hn q hq radius
  refine ⟨a, r, h1, r1, ?_, ?_⟩
  · intro d i hdi hlt
    obtain ⟨p, hp, e1⟩ := ha.true_distance _ hdi
    dsimp only at hp e1
    have e2 := WithTop.coe_injective e1
    rw [e2] at hlt ⊢
    exact r4 hw i p hp hlt
  · intro d i hdi
    obtain ⟨_, p, hp, e1⟩ := r3 _ hdi
    dsimp only at hp e1
    by_cases hi : i ∈ a.map Prod.snd
    · obtain ⟨p', hp', _, e2⟩ := getElem?_mem_map_snd ha i hi
      rw [hp] at hp'
      cases hp'
      rw [e1]
      exact Or.inl e2
    · rw [e1]
      exact Or.inr (ha.nearest i p hp hi)

/-- Two trees over the same twelve points: leaf sizes 5 and 7, the second with the rows in reverse order. -/
example : (do let nodes ← build kdGood 5; querySingle norm1 (listQueue Prod.fst) nodes [12, 5] 2) =
      .ok [(((3 : Int) : WithTop Int), 9), (((8 : Int) : WithTop Int), 2)] ∧
    (do let nodes ← build (⟨2, kdGood.rows.reverse⟩ : DMat Int) 7; querySingle norm1 (listQueue Prod.fst) nodes [12, 5] 3) =
      .ok [(((3 : Int) : WithTop Int), 2), (((8 : Int) : WithTop Int), 9), (((14 : Int) : WithTop Int), 11)] ∧
    (do let nodes ← build kdGood 5; querySingle norm1 (listQueue Prod.fst) nodes [20, 5] 1) =
      .ok [(((0 : Int) : WithTop Int), 2)] ∧
    nearestDistances norm1 kdGood.rows [12, 5] 3 = [3, 8, 14] := by
  refine ⟨?_, ?_, ?_, ?_⟩ <;> decide +kernel

end OpenML
