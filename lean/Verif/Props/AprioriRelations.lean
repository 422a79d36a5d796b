import Verif.Props.Apriori

/-!
# C128: how the output of `Apriori` changes with thresholds and data
-/

namespace OpenML

open Spec HashTree Apriori

namespace AprioriRelations

theorem sublist_of_subset_sorted {L L' : List (List Nat)} (h : L.Pairwise (DictBefore false)) (h' : L'.Pairwise (DictBefore false))
    (hm : ∀ s ∈ L', s ∈ L) : L'.Sublist L := by
  have n : L'.Nodup := by
    refine h'.imp ?_
    rintro a b h rfl
    exact dict_irrefl a h
  have : Std.Antisymm (DictBefore (α := Nat) false) := ⟨fun a b h1 h2 => (Sort2D.dictBefore_asymm false a b h1 h2).elim⟩
  exact List.sublist_of_subperm_of_pairwise (r := DictBefore false) (List.subperm_of_subset n hm) h' h

theorem level_mono {X : List (List Nat)} {t t' : Nat} (ht : t ≤ t') {k : Nat} {L' : List (List Nat)} (h' : Level X t' k L') :
    ∃ L, Level X t k L ∧ L'.Sublist L := by
  induction h' with
  | one =>
    refine ⟨_, Level.one, List.Sublist.map _ ?_⟩
    refine List.monotone_filter_right _ fun v hv => ?_
    simp only [decide_eq_true_eq] at hv ⊢
    omega
  | @next k L1 L2 prev many sorted mem ih =>
    obtain ⟨L, hL, hs⟩ := ih
    obtain ⟨M, hM1, hM2⟩ := exists_next hL
    refine ⟨M, Level.next hL (lt_of_lt_of_le many hs.length_le) hM1 hM2, sublist_of_subset_sorted hM1 sorted fun s hsm => ?_⟩
    obtain ⟨P, x, y, rfl, h1, h2⟩ := (mem s).mp hsm
    exact (hM2 _).mpr ⟨P, x, y, rfl, h1.trans hs, ht.trans h2⟩

/-- The result of a completed fit of a fresh object. -/
theorem result_iff {X : List (List Nat)} {t : Nat} {r : Bucket} (h : fitData X t [] = .ok r) (s : List Nat) (c : Nat) :
    (s, c) ∈ r ↔ (∃ j M, Level X t j M ∧ s ∈ M) ∧ c = if s.length = 1 then support X s else occurrences X s := by
  rcases fitData_spec X t [] with ⟨new, K, s0, e1, e2, e3, e4⟩ | ⟨e1, _⟩ | ⟨e1, _⟩
  · rw [h] at e1
    cases e1
    exact e4 s c
  · rw [h] at e1; cases e1
  · rw [h] at e1; cases e1

/-- `m` copies of a database. -/
theorem support_copies (X : List (List Nat)) (m : Nat) (s : List Nat) : support (List.replicate m X).flatten s = m * support X s := by
  induction m with
  | zero => simp [support]
  | succ m ih =>
    rw [List.replicate_succ, List.flatten_cons]
    unfold support at *
    rw [List.countP_append, ih, Nat.succ_mul, Nat.add_comm]

theorem occurrences_copies (X : List (List Nat)) (m : Nat) (s : List Nat) :
    occurrences (List.replicate m X).flatten s = m * occurrences X s := by
  induction m with
  | zero => simp [occurrences]
  | succ m ih =>
    rw [List.replicate_succ, List.flatten_cons]
    unfold occurrences at *
    rw [List.map_append, List.sum_append, ih, Nat.succ_mul, Nat.add_comm]

theorem firstOccurrences_append_subset (l l' : List Nat) (h : ∀ v ∈ l', v ∈ l) : firstOccurrences (l ++ l') = firstOccurrences l := by
  induction l' using List.reverseRecOn with
  | nil => simp
  | append_singleton l' a ih =>
    rw [← List.append_assoc, firstOccurrences_concat, if_pos (List.mem_append_left _ (h a (by simp))),
      ih fun v hv => h v (by simp [hv])]

theorem firstOccurrences_copies (X : List (List Nat)) (m : Nat) (hm : 0 < m) :
    firstOccurrences (List.replicate m X).flatten.flatten = firstOccurrences X.flatten := by
  obtain ⟨m, rfl⟩ : ∃ k, m = k + 1 := ⟨m - 1, by omega⟩
  rw [List.replicate_succ, List.flatten_cons, List.flatten_append]
  refine firstOccurrences_append_subset _ _ fun v hv => ?_
  obtain ⟨t, ht, hv⟩ := List.mem_flatten.mp hv
  obtain ⟨Y, hY, ht⟩ := List.mem_flatten.mp ht
  rw [List.eq_of_mem_replicate hY] at ht
  exact List.mem_flatten.mpr ⟨t, ht, hv⟩

theorem level_copies {X : List (List Nat)} {m : Nat} (hm : 0 < m) {t k : Nat} {L : List (List Nat)} :
    Level (List.replicate m X).flatten (m * t) k L ↔ Level X t k L := by
  constructor
  · intro h
    induction h with
    | one =>
      rw [firstOccurrences_copies X m hm]
      simp only [support_copies, Nat.mul_le_mul_left_iff hm]
      exact Level.one
    | next prev many sorted mem ih =>
      refine Level.next ih many sorted fun s => ?_
      rw [mem]
      simp only [occurrences_copies, Nat.mul_le_mul_left_iff hm]
  · intro h
    induction h with
    | one =>
      have := Level.one (X := (List.replicate m X).flatten) (threshold := m * t)
      rw [firstOccurrences_copies X m hm] at this
      simp only [support_copies, Nat.mul_le_mul_left_iff hm] at this
      exact this
    | next prev many sorted mem ih =>
      refine Level.next ih many sorted fun s => ?_
      rw [mem]
      simp only [occurrences_copies, Nat.mul_le_mul_left_iff hm]

theorem support_perm {X Y : List (List Nat)} (h : X.Perm Y) (s : List Nat) : support X s = support Y s := h.countP_eq _

theorem itemsOccur_perm {X Y : List (List Nat)} (h : X.Perm Y) (s : List Nat) : ItemsOccur X s ↔ ItemsOccur Y s := by
  unfold ItemsOccur
  simp only [h.mem_iff]

theorem support_anti (X : List (List Nat)) {a f : List Nat} (h : ∀ v ∈ a, v ∈ f) : support X f ≤ support X a := by
  refine List.countP_mono_left fun t _ ht => ?_
  simp only [decide_eq_true_eq] at ht ⊢
  exact fun v hv => ht v (h v hv)

theorem rulesFor_filter (m : Bucket) {c c' : ℚ} (h : c ≤ c') (f : List Nat) (cf : Nat) (cs : List (List Nat)) :
    rulesFor m c' f cf cs = (rulesFor m c f cf cs).filter fun r => decide (c' ≤ r.2.2) := by
  induction cs with
  | nil => rfl
  | cons a cs ih =>
    unfold rulesFor
    split
    · rename_i n _
      by_cases h1 : c' ≤ (cf : ℚ) / (n : ℚ)
      · rw [if_pos h1, if_pos (h.trans h1), List.filter_cons, if_pos (by simpa using h1), ih]
      · rw [if_neg h1, ih]
        split
        · rw [List.filter_cons, if_neg (by simpa using h1)]
        · rfl
    · exact ih

theorem rulesSizes_filter (m : Bucket) {c c' : ℚ} (h : c ≤ c') (f : List Nat) (cf n i : Nat) (rs : List Rule)
    (hr : rulesSizes m c f cf n i = .ok rs) : rulesSizes m c' f cf n i = .ok (rs.filter fun r => decide (c' ≤ r.2.2)) := by
  induction n generalizing i rs with
  | zero => cases hr; rfl
  | succ n ih =>
    simp only [rulesSizes] at hr ⊢
    obtain ⟨cs, h1, hr⟩ := Res.bind_eq_ok.mp hr
    obtain ⟨rest, h2, hr⟩ := Res.bind_eq_ok.mp hr
    cases hr
    rw [h1, Res.bind_ok, ih _ _ h2, Res.bind_ok, List.filter_append, rulesFor_filter m h]

theorem rulesAll_filter (m : Bucket) {c c' : ℚ} (h : c ≤ c') (es : Bucket) (rs : List Rule) (hr : rulesAll m c es = .ok rs) :
    rulesAll m c' es = .ok (rs.filter fun r => decide (c' ≤ r.2.2)) := by
  induction es generalizing rs with
  | nil => cases hr; rfl
  | cons e es ih =>
    simp only [rulesAll] at hr ⊢
    by_cases hl : e.1.length = 1
    · simp only [if_pos hl, Res.bind_ok] at hr ⊢
      obtain ⟨rest, h2, hr⟩ := Res.bind_eq_ok.mp hr
      cases hr
      rw [ih _ h2]
      rfl
    · simp only [if_neg hl] at hr ⊢
      obtain ⟨r, h1, hr⟩ := Res.bind_eq_ok.mp hr
      obtain ⟨rest, h2, hr⟩ := Res.bind_eq_ok.mp hr
      cases hr
      rw [rulesSizes_filter m h _ _ _ _ _ h1, Res.bind_ok, ih _ h2, Res.bind_ok, List.filter_append]

end AprioriRelations

open AprioriRelations

/-- C128: raising the support threshold only removes itemsets; the remaining ones keep their counts. Any database. -/
theorem C128_threshold (X : List (List Nat)) (t t' : Nat) (ht : t ≤ t') (r r' : Bucket) (h : fitData X t [] = .ok r)
    (h' : fitData X t' [] = .ok r') : ∀ e ∈ r', e ∈ r := by
  rintro ⟨s, c⟩ he
  obtain ⟨⟨j, M, hM, hs⟩, hc⟩ := (result_iff h' s c).mp he
  obtain ⟨L, hL, hsub⟩ := level_mono ht hM
  exact (result_iff h s c).mpr ⟨⟨j, L, hL, hsub.subset hs⟩, hc⟩

example : fitData [[1, 2, 3], [1, 2], [1, 2], [1, 2, 3], [2]] 2 [] = .ok [([1], 4), ([2], 5), ([3], 2), ([1, 2], 4), ([1, 3], 2),
      ([2, 3], 2), ([1, 2, 3], 2)] ∧
    fitData [[1, 2, 3], [1, 2], [1, 2], [1, 2, 3], [2]] 4 [] = .ok [([1], 4), ([2], 5), ([1, 2], 4)] := by
  constructor <;> decide +kernel

/-- C128: with `m` copies of the database and an `m`-fold threshold the fit ends the same way and records the same itemsets with
`m`-fold counts. Any database. -/
theorem C128_copies (X : List (List Nat)) (m : Nat) (hm : 0 < m) (t : Nat) :
    ((∃ r, fitData X t [] = .ok r) ↔ ∃ r, fitData (List.replicate m X).flatten (m * t) [] = .ok r) ∧
    (∀ e, fitData X t [] = .throw e ↔ fitData (List.replicate m X).flatten (m * t) [] = .throw e) ∧
    ∀ r r', fitData X t [] = .ok r → fitData (List.replicate m X).flatten (m * t) [] = .ok r' →
      ∀ s c, (s, c) ∈ r' ↔ ∃ c0, c = m * c0 ∧ (s, c0) ∈ r := by
  obtain ⟨a1, a2, a3, a4⟩ := C23_outcomes X t []
  obtain ⟨b1, b2, b3, b4⟩ := C23_outcomes (List.replicate m X).flatten (m * t) []
  simp only [level_copies hm] at b1 b2 b3
  refine ⟨a1.trans b1.symm, fun e => ?_, fun r r' hr hr' s c => ?_⟩
  · have i1 := a2.trans b2.symm
    have i2 := a3.trans b3.symm
    constructor
    · intro h
      rcases a4 with ⟨r, h1⟩ | h1 | h1
      · rw [h1] at h; cases h
      · rw [h1] at h; cases h; exact i1.mp h1
      · rw [h1] at h; cases h; exact i2.mp h1
    · intro h
      rcases b4 with ⟨r, h1⟩ | h1 | h1
      · rw [h1] at h; cases h
      · rw [h1] at h; cases h; exact i1.mpr h1
      · rw [h1] at h; cases h; exact i2.mpr h1
  · rw [result_iff hr' s c]
    simp only [result_iff hr, level_copies hm, support_copies, occurrences_copies]
    constructor
    · rintro ⟨h1, rfl⟩
      exact ⟨_, by split <;> rfl, h1, rfl⟩
    · rintro ⟨c0, rfl, h1, rfl⟩
      exact ⟨h1, by split <;> rfl⟩

example : fitData [[2, 1], [1], [1, 2]] 2 [] = .throw .invalidArgument ∧ fitData [[2, 1], [2, 1], [1]] 2 [] = .ok [([2], 2), ([1], 3), ([2, 1], 2)] ∧
    fitData ([[2, 1], [2, 1], [1]] ++ [[2, 1], [2, 1], [1]]) 4 [] = .ok [([2], 4), ([1], 6), ([2, 1], 4)] := by
  refine ⟨?_, ?_, ?_⟩ <;> decide +kernel

/-- C128: the order of the transactions does not matter as long as both databases are consistently ordered. -/
theorem C128_order (X Y : List (List Nat)) (hX : ConsistentlyOrdered X) (hY : ConsistentlyOrdered Y) (h : X.Perm Y) (t : Nat) :
    ((∃ r, fitData X t [] = .ok r) ↔ ∃ r, fitData Y t [] = .ok r) ∧
    ∀ r r', fitData X t [] = .ok r → fitData Y t [] = .ok r' → r.Perm r' := by
  have hf : ∀ k s, IsFrequent X t k s ↔ IsFrequent Y t k s := by
    intro k s
    constructor
    · rintro ⟨h1, h2, h3, h4⟩
      exact ⟨h1, h2, (itemsOccur_perm h s).mp h3, by rw [← support_perm h]; exact h4⟩
    · rintro ⟨h1, h2, h3, h4⟩
      exact ⟨h1, h2, (itemsOccur_perm h s).mpr h3, by rw [support_perm h]; exact h4⟩
  constructor
  · rw [(C23_ordered X t [] hX).1, (C23_ordered Y t [] hY).1]
    simp only [hf]
  · intro r r' hr hr'
    obtain ⟨n1, m1⟩ := C21_sound_and_complete X t r hX hr
    obtain ⟨n2, m2⟩ := C21_sound_and_complete Y t r' hY hr'
    refine (List.perm_ext_iff_of_nodup (List.Nodup.of_map _ n1) (List.Nodup.of_map _ n2)).mpr ?_
    rintro ⟨s, c⟩
    rw [m1, m2, support_perm h, itemsOccur_perm h]

example : ConsistentlyOrdered [[1, 2, 3], [2], [1, 2]] ∧ ConsistentlyOrdered [[1, 2], [2], [1, 2, 3]] ∧
    [[1, 2, 3], [2], [1, 2]].Perm [[1, 2], [2], [1, 2, 3]] := by decide

/-- C128: every non-empty part of a recorded itemset is recorded, with a count that is not smaller. -/
theorem C128_parts (X : List (List Nat)) (hX : ConsistentlyOrdered X) (t : Nat) (r : Bucket) (h : fitData X t [] = .ok r)
    (s a : List Nat) (c : Nat) (hs : (s, c) ∈ r) (ha : a.Sublist s) (hne : a ≠ []) : ∃ c', c ≤ c' ∧ (a, c') ∈ r := by
  obtain ⟨_, m⟩ := C21_sound_and_complete X t r hX h
  obtain ⟨_, h2, h3, h4, rfl⟩ := (m s c).mp hs
  have hle := support_anti X (fun v hv => ha.subset hv : ∀ v ∈ a, v ∈ s)
  exact ⟨support X a, hle, (m a _).mpr ⟨hne, h2.sublist ha, fun v hv => h3 v (ha.subset hv), h4.trans hle, rfl⟩⟩

/-- C128: further transactions at the end never remove an itemset and never lower a count, for a fixed number of transactions as
threshold. -/
theorem C128_added (X Y : List (List Nat)) (hX : ConsistentlyOrdered X) (hY : ConsistentlyOrdered (X ++ Y)) (t : Nat) (r r' : Bucket)
    (h : fitData X t [] = .ok r) (h' : fitData (X ++ Y) t [] = .ok r') (s : List Nat) (c : Nat) (hs : (s, c) ∈ r) :
    ∃ c', c ≤ c' ∧ (s, c') ∈ r' := by
  obtain ⟨_, m⟩ := C21_sound_and_complete X t r hX h
  obtain ⟨_, m'⟩ := C21_sound_and_complete (X ++ Y) t r' hY h'
  obtain ⟨h1, h2, h3, h4, rfl⟩ := (m s c).mp hs
  have hle : support X s ≤ support (X ++ Y) s := by
    unfold support
    rw [List.countP_append]
    exact Nat.le_add_right _ _
  refine ⟨_, hle, (m' s _).mpr ⟨h1, h2, fun v hv => ?_, h4.trans hle, rfl⟩⟩
  obtain ⟨u, hu, hv⟩ := h3 v hv
  exact ⟨u, List.mem_append_left _ hu, hv⟩

/-- C128: raising the minimal confidence filters the list of rules, whatever itemsets have been recorded. -/
theorem C128_min_confidence (table : Bucket) (c c' : ℚ) (h : c ≤ c') (rules : List Rule) (hr : transformData table c = .ok rules) :
    transformData table c' = .ok (rules.filter fun r => decide (c' ≤ r.2.2)) := rulesAll_filter _ h _ _ hr

/-- C128: on a consistently ordered database confidences lie between 0 (excluded) and 1, and items moved from the consequent to the
antecedent never lower the confidence: with a rule all rules with a larger antecedent from the same itemset are reported, with at
least this confidence. -/
theorem C128_antecedent (m : Model) (X : List (List Nat)) (hX : ConsistentlyOrdered X)
    (hpos : 1 ≤ (X.length : ℚ) * m.minSupport) (h1 : m.allFrequency = []) (h2 : m.rules = []) (m' : Model)
    (h : m.fitTransform X = .ok m') (a c : List Nat) (conf : ℚ) (hr : (a, c, conf) ∈ m'.rules) :
    0 < conf ∧ conf ≤ 1 ∧ ∃ f : List Nat, f.Pairwise (· < ·) ∧ (∀ v, v ∈ f ↔ v ∈ a ∨ v ∈ c) ∧
      ∀ a' : List Nat, a'.Sublist f → a.Sublist a' → a' ≠ f →
        ∃ c' conf', (a', c', conf') ∈ m'.rules ∧ conf ≤ conf' ∧ (∀ v, v ∈ f ↔ v ∈ a' ∨ v ∈ c') := by
  have hiff := C24_end_to_end m X hX hpos h1 h2 m' h
  obtain ⟨f, hf, hs, hm, hrule⟩ := (hiff a c conf).mp hr
  have hfpos : 0 < support X f := by
    by_contra h0
    rw [Nat.eq_zero_of_not_pos h0] at hs
    norm_num at hs
    linarith
  have hfa : support X f ≤ support X a := support_anti X fun v hv => hrule.part.subset hv
  have hq : (0 : ℚ) < support X f := by exact_mod_cast hfpos
  have hqa : (0 : ℚ) < support X a := by exact_mod_cast lt_of_lt_of_le hfpos hfa
  have hqle : (support X f : ℚ) ≤ support X a := by exact_mod_cast hfa
  refine ⟨by rw [hrule.confidence]; positivity, by rw [hrule.confidence]; exact (div_le_one hqa).mpr hqle, f, hf, fun v => ?_, ?_⟩
  · rw [hrule.consequent]
    constructor
    · intro hv
      by_cases hva : v ∈ a
      · exact Or.inl hva
      · exact Or.inr ⟨hv, hva⟩
    · rintro (hv | hv)
      · exact hrule.part.subset hv
      · exact hv.1
  · intro a' ha' haa hne
    have hle : support X a' ≤ support X a := support_anti X fun v hv => haa.subset hv
    have hfa' : support X f ≤ support X a' := support_anti X fun v hv => ha'.subset hv
    have hqa' : (0 : ℚ) < support X a' := by exact_mod_cast lt_of_lt_of_le hfpos hfa'
    have hconf : conf ≤ (support X f : ℚ) / (support X a' : ℚ) := by
      rw [hrule.confidence]
      exact div_le_div_of_nonneg_left hq.le hqa' (by exact_mod_cast hle)
    have hne' : a' ≠ [] := by
      rintro rfl
      exact hrule.nonempty (List.sublist_nil.mp haa)
    refine ⟨f.filter fun v => decide (v ∉ a'), _, (hiff _ _ _).mpr ⟨f, hf, hs, hm.trans hconf, ha', hne', hne, hf.filter _, ?_, rfl⟩,
      hconf, fun v => ?_⟩
    · intro v
      simp [List.mem_filter]
    · simp only [List.mem_filter, decide_eq_true_eq]
      constructor
      · intro hv
        by_cases hva : v ∈ a'
        · exact Or.inl hva
        · exact Or.inr ⟨hv, hva⟩
      · rintro (hv | hv)
        · exact ha'.subset hv
        · exact hv.1

/-- Data for `C128_parts`, `C128_added`, `C128_min_confidence` and `C128_antecedent`: five transactions, minimal support 2/5, and the
same database without its last transaction. -/
example : ConsistentlyOrdered [[1, 2, 3], [1, 2], [1, 2], [1, 2, 3], [2]] ∧ ConsistentlyOrdered [[1, 2, 3], [1, 2], [1, 2], [1, 2, 3]] ∧
    fitData [[1, 2, 3], [1, 2], [1, 2], [1, 2, 3]] 2 [] = .ok [([1], 4), ([2], 4), ([3], 2), ([1, 2], 4), ([1, 3], 2), ([2, 3], 2),
      ([1, 2, 3], 2)] ∧
    supportCount 5 (2 / 5) = 2 := by
  refine ⟨by decide, by decide, by decide +kernel, by decide +kernel⟩

/-- The rules with confidence at least 1/2 and at least 4/5 from three recorded itemsets. -/
example : transformData [([1], 4), ([2], 5), ([1, 2], 3)] (1 / 2) = .ok [([1], [2], 3 / 4), ([2], [1], 3 / 5)] ∧
    transformData [([1], 4), ([2], 5), ([1, 2], 3)] (2 / 3) = .ok [([1], [2], 3 / 4)] := by
  constructor <;> decide +kernel

/-- The hypotheses of `C128_antecedent` are met by a run that reports rules. -/
example : ∃ m', (Model.mk (2 / 5) (1 / 2) [] []).fitTransform [[1, 2], [1, 2], [1, 2], [1, 3], [2]] = .ok m' ∧
    m'.rules = [([1], [2], 3 / 4), ([2], [1], 3 / 4)] := by
  refine ⟨⟨2 / 5, 1 / 2, [([1], 4), ([2], 4), ([1, 2], 3)], [([1], [2], 3 / 4), ([2], [1], 3 / 4)]⟩, ?_, rfl⟩
  have h1 : fitData [[1, 2], [1, 2], [1, 2], [1, 3], [2]] (supportCount 5 (2 / 5)) [] = .ok [([1], 4), ([2], 4), ([1, 2], 3)] := by
    decide +kernel
  have h2 : transformData [([1], 4), ([2], 4), ([1, 2], 3)] (1 / 2) = .ok [([1], [2], 3 / 4), ([2], [1], 3 / 4)] := by decide +kernel
  unfold Model.fitTransform
  dsimp only [List.length_cons, List.length_nil]
  rw [h1, Res.bind_ok, h2]
  rfl

end OpenML
