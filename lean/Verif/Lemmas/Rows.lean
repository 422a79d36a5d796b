import Verif.Model.Rows
import Verif.Spec.FirstOccurrence
import Mathlib.Data.Finset.Card
import Mathlib.Data.Finset.Range
import Mathlib.Tactic.Ring
import Mathlib.Tactic.Linarith

namespace OpenML.Rows
open OpenML.Spec

variable {α : Type} [DecidableEq α]

/-- Positions already accounted for: at most the current row, or flagged. -/
def done (s : State) (j : Nat) : Prop := j ≤ s.curIdx ∨ s.indices[j]? = some true

instance (s : State) (j : Nat) : Decidable (done s j) := inferInstanceAs (Decidable (_ ∨ _))

structure Inv (X : List (List α)) (s : State) : Prop where
  cur_lt : s.curIdx < X.length
  cur_it : s.curIdx < s.it
  it_le : s.it ≤ X.length
  len : s.indices.length = X.length
  uniq : s.uniqueInds = (List.range (s.curIdx + 1)).filter (fun i => decide (IsFirst X i))
  mark : ∀ j, j < X.length → (s.indices[j]? = some true ↔
    j = 0 ∨ ∃ i, i < j ∧ X[i]? = X[j]? ∧ (i < s.curIdx ∨ (i = s.curIdx ∧ j < s.it)))
  num : s.numSearches = ((Finset.range X.length).filter (done s)).card

theorem nextFree_spec (bs : List Bool) (i : Nat) (k : Nat) (hk : k < bs.length) (hf : bs[k]? = some false)
    (ht : ∀ j, j < k → bs[j]? = some true) : nextFree bs i = .ok (i + k) := by
  induction bs generalizing i k with
  | nil => simp at hk
  | cons b bs ih =>
    cases k with
    | zero => simp at hf; subst hf; simp [nextFree]
    | succ k =>
      have h0 := ht 0 (by omega)
      simp at h0; subst h0
      simp only [nextFree, if_true]
      rw [ih (i + 1) k (by simpa using hk) (by simpa using hf)
        (fun j hj => by simpa using ht (j + 1) (by omega))]
      congr 1; omega

theorem range_filter_step (p : Nat → Bool) (a b : Nat) (hab : a < b) (hb : p b = true)
    (hn : ∀ j, a < j → j < b → p j = false) :
    (List.range (b + 1)).filter p = (List.range (a + 1)).filter p ++ [b] := by
  obtain ⟨d, rfl⟩ : ∃ d, b = a + 1 + d := ⟨b - (a + 1), by omega⟩
  rw [List.range_succ, List.filter_append]
  have : (List.range (a + 1 + d)).filter p = (List.range (a + 1)).filter p := by
    rw [List.range_add, List.filter_append]
    have : (List.map (fun x => a + 1 + x) (List.range d)).filter p = [] := by
      rw [List.filter_eq_nil_iff]
      intro j hj
      simp at hj
      obtain ⟨c, hc, rfl⟩ := hj
      simp [hn (a + 1 + c) (by omega) (by omega)]
    rw [this, List.append_nil]
  rw [this]; simp [hb]

theorem range_filter_all (p : Nat → Bool) (a n : Nat) (han : a < n)
    (hn : ∀ j, a < j → j < n → p j = false) :
    (List.range n).filter p = (List.range (a + 1)).filter p := by
  obtain ⟨d, rfl⟩ : ∃ d, n = a + 1 + d := ⟨n - (a + 1), by omega⟩
  rw [List.range_add, List.filter_append]
  have : (List.map (fun x => a + 1 + x) (List.range d)).filter p = [] := by
    rw [List.filter_eq_nil_iff]
    intro j hj
    simp at hj
    obtain ⟨c, hc, rfl⟩ := hj
    simp [hn (a + 1 + c) (by omega) (by omega)]
  rw [this, List.append_nil]

/-- Changing the accounted set by exactly one new position raises the count by one. -/
theorem card_step {n : Nat} {p q : Nat → Prop} [DecidablePred p] [DecidablePred q] (b : Nat) (hb : b < n) (hpb : ¬ p b)
    (h : ∀ j, j < n → (q j ↔ p j ∨ j = b)) :
    ((Finset.range n).filter q).card = ((Finset.range n).filter p).card + 1 := by
  have : (Finset.range n).filter q = insert b ((Finset.range n).filter p) := by
    ext j
    simp only [Finset.mem_filter, Finset.mem_insert, Finset.mem_range]
    constructor
    · rintro ⟨hj, hq⟩
      rcases (h j hj).mp hq with hp | rfl
      · exact Or.inr ⟨hj, hp⟩
      · exact Or.inl rfl
    · rintro (rfl | ⟨hj, hp⟩)
      · exact ⟨hb, (h _ hb).mpr (Or.inr rfl)⟩
      · exact ⟨hj, (h _ hj).mpr (Or.inl hp)⟩
  rw [this, Finset.card_insert_of_notMem]
  simp [hpb]

theorem card_congr' {n : Nat} {p q : Nat → Prop} [DecidablePred p] [DecidablePred q]
    (h : ∀ j, j < n → (q j ↔ p j)) :
    ((Finset.range n).filter q).card = ((Finset.range n).filter p).card := by
  congr 1
  ext j
  simp only [Finset.mem_filter, Finset.mem_range]
  constructor <;> rintro ⟨hj, hq⟩ <;> exact ⟨hj, by simpa [h j hj] using hq⟩

theorem exists_not_done {X : List (List α)} {s : State} (h : Inv X s) (hlt : s.numSearches < X.length) :
    ∃ j, j < X.length ∧ ¬ done s j := by
  by_contra hne
  push Not at hne
  have : (Finset.range X.length).filter (done s) = Finset.range X.length := by
    rw [Finset.filter_eq_self]
    intro a ha
    exact hne a (by simpa using ha)
  have hn := h.num
  rw [this, Finset.card_range] at hn
  omega

theorem all_done {X : List (List α)} {s : State} (h : Inv X s) (hge : X.length ≤ s.numSearches) :
    ∀ j, j < X.length → done s j := by
  intro j hj
  have hn := h.num
  have hsub : (Finset.range X.length).filter (done s) = Finset.range X.length := by
    apply Finset.eq_of_subset_of_card_le (Finset.filter_subset _ _)
    rw [Finset.card_range, ← hn]; exact hge
  have : j ∈ (Finset.range X.length).filter (done s) := by rw [hsub]; simpa using hj
  exact (Finset.mem_filter.mp this).2

theorem num_le {X : List (List α)} {s : State} (h : Inv X s) : s.numSearches ≤ X.length := by
  rw [h.num]
  calc _ ≤ (Finset.range X.length).card := Finset.card_filter_le _ _
    _ = X.length := Finset.card_range _

/-- A flagged later position is not a first occurrence. -/
theorem not_first_of_flag {X : List (List α)} {s : State} (h : Inv X s) {j : Nat} (hj : j < X.length)
    (hc : s.curIdx < j) (hm : s.indices[j]? = some true) : ¬ IsFirst X j := by
  rcases (h.mark j hj).mp hm with rfl | ⟨i, hi, he, _⟩
  · omega
  · exact fun hf => hf i hi he

theorem exit_spec {X : List (List α)} {s : State} (h : Inv X s) (hge : X.length ≤ s.numSearches) :
    s.uniqueInds = (List.range X.length).filter (fun i => decide (IsFirst X i)) := by
  rw [h.uniq]
  symm
  apply range_filter_all _ _ _ h.cur_lt
  intro j hcj hj
  rcases all_done h hge j hj with hd | hd
  · omega
  · simpa using not_first_of_flag h hj hcj hd

/-- One comparison keeps the invariant, moves `it` by one and leaves the current row. -/
theorem markStep_inv {X : List (List α)} {s : State} (h : Inv X s) (hit : s.it < X.length) :
    ∃ s', markStep X s = .ok s' ∧ Inv X s' ∧ s'.it = s.it + 1 ∧ s'.curIdx = s.curIdx := by
  have hlen := h.len
  have hci := h.cur_it
  have hcl := h.cur_lt
  have hil : s.it < s.indices.length := by omega
  unfold markStep
  rw [readAt_of_lt hil]
  simp only [Res.bind_ok]
  have keep : ∀ (hk : s.indices[s.it]? = some true ∨ X[s.curIdx]? ≠ X[s.it]?),
      Inv X { s with it := s.it + 1 } := by
    intro hk
    refine ⟨h.cur_lt, by simp; omega, hit, h.len, h.uniq, ?_, h.num⟩
    intro j hj
    rw [h.mark j hj]
    constructor
    · rintro (rfl | ⟨i, hi, he, hc⟩)
      · exact Or.inl rfl
      · refine Or.inr ⟨i, hi, he, ?_⟩
        simp only
        omega
    · rintro (rfl | ⟨i, hi, he, hc⟩)
      · exact Or.inl rfl
      · simp only at hc
        rcases hc with hc | ⟨rfl, hc⟩
        · exact Or.inr ⟨i, hi, he, Or.inl hc⟩
        · by_cases hji : j = s.it
          · subst hji
            rcases hk with hk | hk
            · exact (h.mark _ hj).mp hk
            · exact absurd he hk
          · exact Or.inr ⟨_, hi, he, Or.inr ⟨rfl, by omega⟩⟩
  by_cases hfl : s.indices[s.it] = true
  · simp only [hfl, if_true]
    refine ⟨_, rfl, keep (Or.inl ?_), rfl, rfl⟩
    rw [List.getElem?_eq_getElem hil, hfl]
  · have hfl' : s.indices[s.it] = false := by simpa using hfl
    simp only [hfl', Bool.false_eq_true, if_false]
    rw [readAt_of_lt hcl, readAt_of_lt hit]
    simp only [Res.bind_ok]
    by_cases hab : X[s.curIdx] = X[s.it]
    · simp only [hab, if_true]
      refine ⟨_, rfl, ?_, rfl, rfl⟩
      have hset : ∀ j, j < X.length → ((s.indices.set s.it true)[j]? = some true ↔ s.indices[j]? = some true ∨ j = s.it) := by
        intro j hj
        rw [List.getElem?_set]
        by_cases hji : s.it = j
        · subst hji; simp [hil]
        · simp [hji]
          omega
      refine ⟨h.cur_lt, by simp; omega, hit, by simpa using h.len, h.uniq, ?_, ?_⟩
      · intro j hj
        simp only
        rw [hset j hj, h.mark j hj]
        constructor
        · rintro ((rfl | ⟨i, hi, he, hc⟩) | rfl)
          · exact Or.inl rfl
          · exact Or.inr ⟨i, hi, he, by omega⟩
          · refine Or.inr ⟨s.curIdx, hci, ?_, Or.inr ⟨rfl, by omega⟩⟩
            rw [List.getElem?_eq_getElem hcl, List.getElem?_eq_getElem hit, hab]
        · rintro (rfl | ⟨i, hi, he, hc⟩)
          · exact Or.inl (Or.inl rfl)
          · by_cases hji : j = s.it
            · exact Or.inr hji
            · exact Or.inl (Or.inr ⟨i, hi, he, by omega⟩)
      · simp only
        rw [h.num]
        symm
        apply card_step s.it hit
        · rintro (hd | hd)
          · omega
          · rw [List.getElem?_eq_getElem hil, hfl'] at hd; simp at hd
        · intro j hj
          unfold done
          simp only
          rw [hset j hj]
          tauto
    · simp only [hab, if_false]
      refine ⟨_, rfl, keep (Or.inr ?_), rfl, rfl⟩
      rw [List.getElem?_eq_getElem hcl, List.getElem?_eq_getElem hit]
      simpa using hab

/-- Moving on to the next free row: it exists, it is the next first occurrence, and the invariant is kept. -/
theorem next_inv {X : List (List α)} {s : State} (h : Inv X s) (hlt : s.numSearches < X.length)
    (hit : X.length ≤ s.it) :
    ∃ cur, nextFree (s.indices.drop (s.curIdx + 1)) (s.curIdx + 1) = .ok cur ∧ s.curIdx < cur ∧
      Inv X { s with curIdx := cur, uniqueInds := s.uniqueInds ++ [cur],
                     numSearches := s.numSearches + 1, it := cur + 1 } := by
  have hlen := h.len
  have hite : s.it = X.length := by have := h.it_le; omega
  have hex := exists_not_done h hlt
  let cur := Nat.find hex
  have hcur : cur < X.length ∧ ¬ done s cur := Nat.find_spec hex
  have hmin : ∀ j, j < cur → done s j := by
    intro j hj
    by_contra hd
    exact Nat.find_min hex hj ⟨by omega, hd⟩
  have hcc : s.curIdx < cur := by
    by_contra hle
    exact hcur.2 (Or.inl (by omega))
  have hflag : ∀ j, s.curIdx < j → j < cur → s.indices[j]? = some true := by
    intro j h1 h2
    rcases hmin j h2 with hd | hd
    · omega
    · exact hd
  have hfree : s.indices[cur]? = some false := by
    have : cur < s.indices.length := by omega
    rw [List.getElem?_eq_getElem this]
    have h2 : ¬ s.indices[cur]? = some true := fun hd => hcur.2 (Or.inr hd)
    rw [List.getElem?_eq_getElem this] at h2
    simpa using h2
  -- no earlier equal row
  have hfirst : IsFirst X cur := by
    intro i hi he
    apply hcur.2
    refine Or.inr ((h.mark cur hcur.1).mpr (Or.inr ?_))
    by_cases hic : i ≤ s.curIdx
    · exact ⟨i, hi, he, by omega⟩
    · rcases (h.mark i (by omega)).mp (hflag i (by omega) hi) with rfl | ⟨i0, hi0, he0, hc0⟩
      · omega
      · exact ⟨i0, by omega, he0.trans he, by omega⟩
  refine ⟨cur, ?_, hcc, ?_⟩
  · rw [nextFree_spec _ _ (cur - (s.curIdx + 1))]
    · congr 1; omega
    · simp; omega
    · rw [List.getElem?_drop, show s.curIdx + 1 + (cur - (s.curIdx + 1)) = cur by omega]; exact hfree
    · intro j hj
      rw [List.getElem?_drop]
      exact hflag _ (by omega) (by omega)
  · refine ⟨hcur.1, by simp, by simp only; have := hcur.1; omega, h.len, ?_, ?_, ?_⟩
    · simp only
      rw [h.uniq]
      symm
      apply range_filter_step _ _ _ hcc
      · simpa using hfirst
      · intro j h1 h2
        simpa using not_first_of_flag h (by omega) h1 (hflag j h1 h2)
    · intro j hj
      simp only
      rw [h.mark j hj]
      constructor
      · rintro (rfl | ⟨i, hi, he, hc⟩)
        · exact Or.inl rfl
        · exact Or.inr ⟨i, hi, he, Or.inl (by omega)⟩
      · rintro (rfl | ⟨i, hi, he, hc⟩)
        · exact Or.inl rfl
        · rcases hc with hc | ⟨rfl, hc⟩
          · by_cases hic : i ≤ s.curIdx
            · exact Or.inr ⟨i, hi, he, by omega⟩
            · rcases (h.mark i (by omega)).mp (hflag i (by omega) hc) with rfl | ⟨i0, hi0, he0, hc0⟩
              · omega
              · exact Or.inr ⟨i0, by omega, he0.trans he, by omega⟩
          · omega
    · simp only
      rw [h.num]
      symm
      apply card_step cur hcur.1 hcur.2
      intro j hj
      constructor
      · rintro (hd | hd)
        · simp only at hd
          rcases Nat.lt_or_eq_of_le hd with hd | hd
          · exact Or.inl (hmin j hd)
          · exact Or.inr hd
        · exact Or.inl (Or.inr hd)
      · rintro ((hd | hd) | rfl)
        · exact Or.inl (by simp only; omega)
        · exact Or.inr hd
        · exact Or.inl (by simp)

/-- Fuel bound: pairs of (rows left, comparisons left). -/
def need (X : List (List α)) (s : State) : Nat := (X.length - s.curIdx) * (X.length + 1) + (X.length - s.it)

theorem loop_spec (X : List (List α)) : ∀ (fuel : Nat) (s : State), Inv X s → need X s < fuel →
    loop X fuel s = .ok ((List.range X.length).filter (fun i => decide (IsFirst X i))) := by
  intro fuel
  induction fuel with
  | zero => intro s _ hf; omega
  | succ fuel ih =>
    intro s h hf
    rw [loop]
    by_cases hlt : s.numSearches < X.length
    · simp only [hlt, if_true]
      by_cases hit : X.length ≤ s.it
      · simp only [hit, if_true]
        obtain ⟨cur, hn, hcc, hinv⟩ := next_inv h hlt hit
        rw [hn]
        simp only [Res.bind_ok]
        by_cases hbr : X.length ≤ cur + 1 ∧ X.length = s.numSearches + 1
        · rw [if_pos hbr]
          have := exit_spec hinv (by simp only; omega)
          simp only at this
          rw [this]
        · simp only [hbr, if_false]
          have hcur : cur < X.length := hinv.cur_lt
          have hit' : cur + 1 < X.length := by
            by_contra hge
            have hall : ¬ (s.numSearches + 1 < X.length) := by
              intro hlt'
              obtain ⟨j, hj, hd⟩ := exists_not_done hinv (by simpa using hlt')
              exact hd (Or.inl (by simp only; omega))
            have := num_le hinv
            simp only at this
            exact hbr ⟨by omega, by omega⟩
          obtain ⟨s'', hs'', hinv'', hit'', hcur''⟩ := markStep_inv hinv (by simpa using hit')
          rw [hs'']
          simp only [Res.bind_ok]
          apply ih _ hinv''
          unfold need at hf ⊢
          simp only at hit'' hcur''
          rw [hit'', hcur'']
          have e : X.length - s.curIdx = (X.length - cur) + (cur - s.curIdx - 1) + 1 := by omega
          rw [e, Nat.add_mul, Nat.add_mul] at hf
          have : X.length - (cur + 1 + 1) ≤ X.length := by omega
          have h0 : 0 ≤ (cur - s.curIdx - 1) * (X.length + 1) := Nat.zero_le _
          omega
      · simp only [hit, if_false]
        obtain ⟨s'', hs'', hinv'', hit'', hcur''⟩ := markStep_inv h (by omega)
        rw [hs'']
        simp only [Res.bind_ok]
        apply ih _ hinv''
        unfold need at hf ⊢
        rw [hit'', hcur'']
        omega
    · simp only [hlt, if_false]
      rw [exit_spec h (by omega)]

theorem init_inv (X : List (List α)) (hX : X ≠ []) :
    Inv X { numSearches := 1, curIdx := 0, it := 1, indices := (List.replicate X.length false).set 0 true,
            uniqueInds := [0] } := by
  have hpos : 0 < X.length := List.length_pos_iff.mpr hX
  have hidx : ∀ j, j < X.length → (((List.replicate X.length false).set 0 true)[j]? = some true ↔ j = 0) := by
    intro j hj
    rw [List.getElem?_set]
    by_cases h0 : 0 = j
    · subst h0; simp [hpos]
    · simp [h0]
      constructor
      · intro h
        rw [List.getElem?_replicate] at h
        simp [hj] at h
      · intro h; omega
  refine ⟨hpos, by simp, by simp only; omega, by simp, ?_, ?_, ?_⟩
  · simp [IsFirst]
  · intro j hj
    simp only
    rw [hidx j hj]
    constructor
    · exact Or.inl
    · rintro (h | ⟨i, hi, _, hc⟩)
      · exact h
      · omega
  · simp only
    rw [card_congr' (p := fun j => j = 0)]
    · rw [Finset.filter_eq']
      simp [hpos]
    · intro j hj
      unfold done
      simp only
      rw [hidx j hj]
      omega

omit [DecidableEq α] in
theorem gather_spec (X : List (List α)) (is : List Nat) (h : ∀ i ∈ is, i < X.length) :
    gather X is = .ok (is.filterMap (X[·]?)) := by
  induction is with
  | nil => simp [gather]
  | cons i is ih =>
    have hi := h i (by simp)
    simp only [gather]
    rw [readAt_of_lt hi, ih (fun j hj => h j (by simp [hj]))]
    simp [List.getElem?_eq_getElem hi]

theorem removeDuplicateRowsFuel_spec (X : List (List α)) (fuel : Nat)
    (hf : (X.length + 1) * (X.length + 1) ≤ fuel) (h1 : X ≠ []) (h2 : X.head? ≠ some []) :
    removeDuplicateRowsFuel fuel X = .ok (firstOccurrences X) := by
  match X, h1, h2 with
  | (a :: r) :: Y, _, _ =>
    have := loop_spec ((a :: r) :: Y) fuel _ (init_inv ((a :: r) :: Y) (by simp)) (by
      unfold need
      simp only
      have : ((a :: r) :: Y).length = Y.length + 1 := rfl
      rw [this] at hf ⊢
      simp only [Nat.sub_zero]
      have e : (Y.length + 1 + 1) * (Y.length + 1 + 1) = (Y.length + 1) * (Y.length + 1 + 1) + (Y.length + 1 + 1) := by ring
      omega)
    simp only [removeDuplicateRowsFuel]
    rw [this]
    simp only [Res.bind_ok]
    rw [gather_spec]
    · rfl
    · intro i hi
      have := (List.mem_filter.mp hi).1
      simpa using this

omit [DecidableEq α] in
theorem firstOccurrences_meaning {β : Type} [DecidableEq β] (X : List β) :
    (firstOccurrences X).Sublist X ∧ (firstOccurrences X).Nodup ∧ ∀ r, r ∈ firstOccurrences X ↔ r ∈ X := by
  have hall : X = (List.range X.length).filterMap (X[·]?) := by
    have h : ∀ (Y : List β), (List.range Y.length).filterMap (Y[·]?) = Y := by
      intro Y
      induction Y with
      | nil => simp
      | cons a Y ih =>
        rw [List.length_cons, List.range_succ_eq_map, List.filterMap_cons]
        simp only [List.getElem?_cons_zero, List.filterMap_map]
        congr 1
    exact (h X).symm
  refine ⟨?_, ?_, ?_⟩
  · conv_rhs => rw [hall]
    exact List.Sublist.filterMap _ List.filter_sublist
  · unfold firstOccurrences
    rw [List.nodup_iff_pairwise_ne, List.pairwise_filterMap]
    have hp : ((List.range X.length).filter (fun i => decide (IsFirst X i))).Pairwise (· < ·) :=
      List.pairwise_lt_range.sublist List.filter_sublist
    refine hp.imp_of_mem ?_
    intro i j hi hj hij a ha b hb hab
    subst hab
    have hj' := (List.mem_filter.mp hj).2
    simp at hj'
    exact hj' i hij (ha.trans hb.symm)
  · intro r
    unfold firstOccurrences
    simp only [List.mem_filterMap, List.mem_filter, List.mem_range, decide_eq_true_eq]
    constructor
    · rintro ⟨i, _, h⟩
      exact List.mem_of_getElem? h
    · intro hr
      have hex : ∃ i, X[i]? = some r := List.mem_iff_getElem?.mp hr
      classical
      refine ⟨Nat.find hex, ⟨?_, ?_⟩, Nat.find_spec hex⟩
      · exact (List.getElem?_eq_some_iff.mp (Nat.find_spec hex)).1
      · intro j hj h
        exact Nat.find_min hex hj (h.trans (Nat.find_spec hex))

end OpenML.Rows
