import Verif.Lemmas.Rules
import Mathlib.Tactic.NormNum

/-!
# Apriori: counts, completeness, termination, rules (C20-C24)
-/

namespace OpenML
open Apriori Spec HashTree

/-- C20. Whenever a fit returns, the entries it adds list each itemset once, every count reaches the threshold, a single
item carries its exact support, and if no transaction repeats an item no count exceeds the number of transactions that
contain all items of the itemset. -/
theorem C20_never_overstates (X : List (List Nat)) (threshold : Nat) (earlier result : Bucket)
    (h : fitData X threshold earlier = .ok result) :
    ∃ new, result = earlier ++ new ∧ (new.map Prod.fst).Nodup ∧ ∀ s c, (s, c) ∈ new →
      threshold ≤ c ∧ (s.length = 1 → c = support X s) ∧ ((∀ t ∈ X, t.Nodup) → c ≤ support X s) := by
  rcases fitData_spec X threshold earlier with ⟨new, K, s, e1, e2, e3, e4⟩ | ⟨e1, _⟩ | ⟨e1, _⟩
  · rw [h] at e1
    cases e1
    refine ⟨new, rfl, e3, ?_⟩
    intro s c hsc
    obtain ⟨⟨j, M, hM, hs⟩, rfl⟩ := (e4 s c).mp hsc
    refine ⟨?_, fun hl => by rw [if_pos hl], fun hX => ?_⟩
    · have hl : s.length = j := hM.inv.len s hs
      cases hM with
      | one =>
        rw [if_pos hl]
        obtain ⟨v, hv, rfl⟩ := List.mem_map.mp hs
        simpa using (List.mem_filter.mp hv).2
      | next prev _ _ mem =>
        have := prev.inv.pos
        rw [if_neg (by omega)]
        obtain ⟨_, _, _, _, _, h⟩ := (mem s).mp hs
        exact h
    · by_cases hl : s.length = 1
      · rw [if_pos hl]
      · rw [if_neg hl]; exact occurrences_le_support hX s
  · rw [h] at e1; cases e1
  · rw [h] at e1; cases e1

/-- C20, the hypothesis matters: with repeated items a reported count exceeds the number of transactions. -/
theorem C20_repetitions_overstate : ∃ (X : List (List Nat)) (threshold : Nat) (result : Bucket),
    fitData X threshold [] = .ok result ∧ ∃ s c, (s, c) ∈ result ∧ X.length < c :=
  ⟨[[1, 1, 2, 2]], 1, [([1], 1), ([2], 1), ([1, 2], 4)], by rfl, [1, 2], 4, by simp, by decide⟩

example : fitData [[1, 2, 3], [2, 1], [1, 2]] 2 [] = .ok [([1], 3), ([2], 3), ([1, 2], 2)] := by rfl
example : ∀ t ∈ [[1, 2, 3], [2, 1], [1, 2]], t.Nodup := by decide

/-- C21. If every transaction is strictly increasing and items first appear in increasing order, a completed fit of a fresh
object reports exactly the frequent itemsets, each once with its exact support. -/
theorem C21_sound_and_complete (X : List (List Nat)) (threshold : Nat) (result : Bucket) (hX : ConsistentlyOrdered X)
    (h : fitData X threshold [] = .ok result) :
    (result.map Prod.fst).Nodup ∧
    ∀ s c, (s, c) ∈ result ↔ s ≠ [] ∧ s.Pairwise (· < ·) ∧ ItemsOccur X s ∧ threshold ≤ support X s ∧
      c = support X s := by
  rcases fitData_spec X threshold [] with ⟨new, K, s, e1, e2, e3, e4⟩ | ⟨e1, _⟩ | ⟨e1, _⟩
  · rw [h] at e1
    cases e1
    rw [List.nil_append]
    refine ⟨e3, fun s c => ?_⟩
    rw [e4]
    constructor
    · rintro ⟨⟨j, M, hM, hs⟩, rfl⟩
      have hf := ((ordered_level hX hM).2 s).mp hs
      have hj := hM.inv.pos
      refine ⟨?_, hf.increasing, hf.occur, hf.frequent, ?_⟩
      · rintro rfl
        have := hf.size
        simp at this; omega
      · rw [occurrences_increasing hX.1 hf.increasing, ite_self]
    · rintro ⟨h1, h2, h3, h4, rfl⟩
      have hpos := List.length_pos_iff.mpr h1
      obtain ⟨k, hk⟩ : ∃ k, s.length = k + 1 := ⟨s.length - 1, by omega⟩
      have hf : IsFrequent X threshold (k + 1) s := ⟨hk, h2, h3, h4⟩
      obtain ⟨L, hL⟩ := ordered_reach hX k s hf
      exact ⟨⟨k + 1, L, hL, ((ordered_level hX hL).2 s).mpr hf⟩,
        by rw [occurrences_increasing hX.1 h2, ite_self]⟩
  · rw [h] at e1; cases e1
  · rw [h] at e1; cases e1

/-- C21 for a positive threshold: the frequent itemsets are those contained in at least that many transactions. -/
theorem C21_positive_threshold (X : List (List Nat)) (threshold : Nat) (result : Bucket) (hX : ConsistentlyOrdered X)
    (hpos : 0 < threshold) (h : fitData X threshold [] = .ok result) (s : List Nat) (c : Nat) :
    (s, c) ∈ result ↔ s ≠ [] ∧ s.Pairwise (· < ·) ∧ threshold ≤ support X s ∧ c = support X s := by
  rw [(C21_sound_and_complete X threshold result hX h).2]
  constructor
  · rintro ⟨h1, h2, _, h4, h5⟩; exact ⟨h1, h2, h4, h5⟩
  · rintro ⟨h1, h2, h4, h5⟩
    refine ⟨h1, h2, ?_, h4, h5⟩
    have : 0 < support X s := by omega
    obtain ⟨t, ht, hs⟩ := List.countP_pos_iff.mp this
    simp only [decide_eq_true_eq] at hs
    exact fun v hv => ⟨t, ht, hs v hv⟩

example : ConsistentlyOrdered [[1, 2, 3], [1, 2], [1, 2, 3]] := by decide
example : fitData [[1, 2, 3], [1, 2], [1, 2, 3]] 2 [] = .ok
    [([1], 3), ([2], 3), ([3], 2), ([1, 2], 3), ([1, 3], 2), ([2, 3], 2), ([1, 2, 3], 2)] := by decide +kernel

/-- C22. Sorted duplicate-free transactions are not enough: a pair contained in as many transactions as the threshold asks
for is not reported although the fit completes. -/
theorem C22_misses_frequent_pair : ∃ (X : List (List Nat)) (threshold : Nat) (result : Bucket),
    (∀ t ∈ X, t.Pairwise (· < ·)) ∧ fitData X threshold [] = .ok result ∧
    ∃ a b, a < b ∧ threshold ≤ support X [a, b] ∧ ∀ c, ([a, b], c) ∉ result ∧ ([b, a], c) ∉ result :=
  ⟨[[2, 3], [1, 2], [1, 2], [2, 3]], 2, [([2], 4), ([3], 2), ([1], 2), ([2, 3], 2)], by decide, by rfl, 1, 2,
    by decide, by decide, by simp⟩

/-- C23. For every database and threshold a fit ends in one of three ways: it returns iff the search reaches a level with
exactly one itemset, throws `invalid_argument` iff it reaches an empty level after the first, and throws `runtime_error` iff
the first level is empty. It never runs into undefined behaviour and always terminates. -/
theorem C23_outcomes (X : List (List Nat)) (threshold : Nat) (earlier : Bucket) :
    ((∃ r, fitData X threshold earlier = .ok r) ↔ ∃ k s, Level X threshold k [s]) ∧
    (fitData X threshold earlier = .throw .invalidArgument ↔ ∃ k, 2 ≤ k ∧ Level X threshold k []) ∧
    (fitData X threshold earlier = .throw .runtimeError ↔ Level X threshold 1 []) ∧
    ((∃ r, fitData X threshold earlier = .ok r) ∨ fitData X threshold earlier = .throw .invalidArgument ∨
      fitData X threshold earlier = .throw .runtimeError) := by
  have excl : ∀ {k k' : Nat} {L L' : List (List Nat)}, Level X threshold k L → Level X threshold k' L' →
      L.length ≤ 1 → L'.length ≤ 1 → k = k' ∧ L = L' := by
    intro k k' L L' h h' hl hl'
    rcases Nat.lt_trichotomy k k' with hk | rfl | hk
    · obtain ⟨d, rfl⟩ : ∃ d, k' = k + d + 1 := ⟨k' - k - 1, by omega⟩
      obtain ⟨L0, h0, h2⟩ := h'.down d h.inv.pos
      rw [h0.unique h] at h2
      omega
    · exact ⟨rfl, h.unique h'⟩
    · obtain ⟨d, rfl⟩ : ∃ d, k = k' + d + 1 := ⟨k - k' - 1, by omega⟩
      obtain ⟨L0, h0, h2⟩ := h.down d h'.inv.pos
      rw [h0.unique h'] at h2
      omega
  rcases fitData_spec X threshold earlier with ⟨new, K, s, e1, e2, _⟩ | ⟨e1, K, e2, e3⟩ | ⟨e1, e3⟩
  · rw [e1]
    refine ⟨⟨fun _ => ⟨K, s, e2⟩, fun _ => ⟨_, rfl⟩⟩, ⟨fun h => (by cases h), ?_⟩, ⟨fun h => (by cases h), ?_⟩,
      Or.inl ⟨_, rfl⟩⟩
    · rintro ⟨k, _, hk⟩
      exact absurd (excl e2 hk (by simp) (by simp)).2 (by simp)
    · intro hk
      exact absurd (excl e2 hk (by simp) (by simp)).2 (by simp)
  · rw [e1]
    refine ⟨⟨fun ⟨r, h⟩ => (by cases h), ?_⟩, ⟨fun _ => ⟨K, e2, e3⟩, fun _ => rfl⟩, ⟨fun h => (by cases h), ?_⟩,
      Or.inr (Or.inl rfl)⟩
    · rintro ⟨k, s, hk⟩
      exact absurd (excl e3 hk (by simp) (by simp)).2 (by simp)
    · intro hk
      have := (excl e3 hk (by simp) (by simp)).1
      omega
  · rw [e1]
    refine ⟨⟨fun ⟨r, h⟩ => (by cases h), ?_⟩, ⟨fun h => (by cases h), ?_⟩, ⟨fun _ => e3, fun _ => rfl⟩,
      Or.inr (Or.inr rfl)⟩
    · rintro ⟨k, s, hk⟩
      exact absurd (excl e3 hk (by simp) (by simp)).2 (by simp)
    · rintro ⟨k, hk2, hk⟩
      have := (excl e3 hk (by simp) (by simp)).1
      omega

/-- C23 for consistently ordered databases: the fit returns iff for some positive size there is exactly one frequent
itemset of that size. -/
theorem C23_ordered (X : List (List Nat)) (threshold : Nat) (earlier : Bucket) (hX : ConsistentlyOrdered X) :
    ((∃ r, fitData X threshold earlier = .ok r) ↔ ∃ k, 1 ≤ k ∧ ∃ s, ∀ s', IsFrequent X threshold k s' ↔ s' = s) ∧
    (fitData X threshold earlier = .throw .runtimeError ↔ ∀ s, ¬ IsFrequent X threshold 1 s) := by
  obtain ⟨h1, _, h3, _⟩ := C23_outcomes X threshold earlier
  constructor
  · rw [h1]
    constructor
    · rintro ⟨k, s, h⟩
      refine ⟨k, h.inv.pos, s, fun s' => ?_⟩
      rw [← (ordered_level hX h).2]
      simp
    · rintro ⟨k, hk, s, hs⟩
      obtain ⟨k, rfl⟩ : ∃ k', k = k' + 1 := ⟨k - 1, by omega⟩
      obtain ⟨L, hL⟩ := ordered_reach hX k s ((hs s).mpr rfl)
      have hm : ∀ s', s' ∈ L ↔ s' = s := fun s' => ((ordered_level hX hL).2 s').trans (hs s')
      have : L = [s] := (List.perm_ext_iff_of_nodup hL.inv.nodup (by simp)).mpr (fun a => by simp [hm]) |>.eq_singleton
      exact ⟨k + 1, s, this ▸ hL⟩
  · rw [h3]
    constructor
    · intro h s hs
      have := ((ordered_level hX h).2 s).mpr hs
      simp at this
    · intro h
      have hL : Level X threshold 1 _ := Level.one
      have := (List.eq_nil_iff_forall_not_mem.mpr fun s hs => h s (((ordered_level hX hL).2 s).mp hs))
      rw [this] at hL
      exact hL

/-- C23, a database on which every call fails although it has frequent items: two single items, no frequent pair. -/
theorem C23_two_items_throw : fitData [[1], [2]] 1 [] = .throw .invalidArgument := by rfl

example : fitData [[1, 2], [1, 3]] 2 [] = .ok [([1], 2)] := by rfl
example : fitData [[1, 2], [1, 3]] 3 [] = .throw .runtimeError := by rfl
example : ConsistentlyOrdered [[1, 2], [1, 3]] := by decide

/-- C24. From any recorded table of increasing itemsets the rules are exactly: the antecedent a recorded non-empty proper
part of a recorded itemset, the consequent the remaining items, the confidence the ratio of the recorded counts and at least
the requested minimum. -/
theorem C24_rules (table : Bucket) (minConfidence : ℚ) (hinc : ∀ e ∈ table, e.1.Pairwise (· < ·)) :
    ∃ rules, transformData table minConfidence = .ok rules ∧
      ∀ a c conf, (a, c, conf) ∈ rules ↔ ∃ f cf ca, lastCount table f = some cf ∧ lastCount table a = some ca ∧
        minConfidence ≤ conf ∧ IsRule f a c cf ca conf := transformData_spec table minConfidence hinc

theorem Apriori.supportCount_le (n : Nat) (q : ℚ) (c : Nat) : supportCount n q ≤ c ↔ (n : ℚ) * q < c + 1 := by
  have h : supportCount n q ≤ c ↔ ⌊(n : ℚ) * q⌋ < (c : Int) + 1 := by
    unfold supportCount
    omega
  rw [h, Int.floor_lt]
  norm_num

theorem Apriori.supportCount_pos (n : Nat) (q : ℚ) : 0 < supportCount n q ↔ 1 ≤ (n : ℚ) * q := by
  have := Apriori.supportCount_le n q 0
  rw [← not_iff_not, not_lt, not_le, this]
  norm_num

/-- C21, in terms of the parameter of the object: with a minimum support that amounts to at least one transaction, a completed
`fit_transform` of a fresh object records exactly the increasing itemsets that reach the requested fraction of the transactions when it
is rounded down to a whole number of transactions, each with its support. So it misses none that reaches the fraction. -/
theorem C21_min_support (a : Model) (X : List (List Nat)) (hX : ConsistentlyOrdered X) (hpos : 1 ≤ (X.length : ℚ) * a.minSupport)
    (h1 : a.allFrequency = []) (a' : Model) (h : a.fitTransform X = .ok a') (s : List Nat) (c : Nat) :
    ((s, c) ∈ a'.allFrequency ↔ s ≠ [] ∧ s.Pairwise (· < ·) ∧ (X.length : ℚ) * a.minSupport < support X s + 1 ∧ c = support X s) ∧
    (s ≠ [] → s.Pairwise (· < ·) → (X.length : ℚ) * a.minSupport ≤ support X s → (s, support X s) ∈ a'.allFrequency) := by
  have hall : ∀ c, (s, c) ∈ a'.allFrequency ↔
      s ≠ [] ∧ s.Pairwise (· < ·) ∧ (X.length : ℚ) * a.minSupport < support X s + 1 ∧ c = support X s := by
    intro c
    unfold Model.fitTransform at h
    rw [h1, Res.bind_eq_ok] at h
    obtain ⟨all, h3, h⟩ := h
    rw [Res.bind_eq_ok] at h
    obtain ⟨rules, h4, h⟩ := h
    cases h
    rw [← supportCount_le]
    exact C21_positive_threshold X _ all hX ((supportCount_pos _ _).mpr hpos) h3 s c
  exact ⟨hall c, fun hs hp hl => (hall _).mpr ⟨hs, hp, by linarith, rfl⟩⟩

/-- Beside C21_min_support and C24_end_to_end: of five transactions a minimum support of 1/2 asks for two and not for three. -/
example : ∃ a', (Model.mk (1 / 2) 1 [] []).fitTransform [[1, 2], [1, 2], [1, 3], [1], [4]] = .ok a' ∧ ([1, 2], 2) ∈ a'.allFrequency ∧
    (1 : ℚ) ≤ ([[1, 2], [1, 2], [1, 3], [1], [4]] : List (List Nat)).length * (1 / 2) := by
  have h1 : fitData [[1, 2], [1, 2], [1, 3], [1], [4]] (supportCount 5 (1 / 2)) [] = .ok [([1], 4), ([2], 2), ([1, 2], 2)] := by
    decide +kernel
  have h2 : transformData [([1], 4), ([2], 2), ([1, 2], 2)] 1 = .ok [([2], [1], 1)] := by decide +kernel
  refine ⟨⟨1 / 2, 1, [([1], 4), ([2], 2), ([1, 2], 2)], [([2], [1], 1)]⟩, ?_, by simp, by norm_num⟩
  unfold Model.fitTransform
  dsimp only [List.length_cons, List.length_nil]
  rw [h1, Res.bind_ok, h2]
  rfl

/-- C24, end to end. On a consistently ordered database a completed `fit_transform` of a fresh object with a minimum support of at least
one transaction yields exactly the rules between increasing itemsets whose union reaches the minimum support rounded down to a number
of transactions, with the true ratio of supports. -/
theorem C24_end_to_end (a : Model) (X : List (List Nat)) (hX : ConsistentlyOrdered X)
    (hpos : 1 ≤ (X.length : ℚ) * a.minSupport) (h1 : a.allFrequency = []) (h2 : a.rules = []) (a' : Model)
    (h : a.fitTransform X = .ok a') (ante cons : List Nat) (conf : ℚ) :
    (ante, cons, conf) ∈ a'.rules ↔ ∃ f, f.Pairwise (· < ·) ∧ (X.length : ℚ) * a.minSupport < support X f + 1 ∧
      a.minConfidence ≤ conf ∧ IsRule f ante cons (support X f) (support X ante) conf := by
  rw [← supportCount_pos] at hpos
  simp only [← supportCount_le]
  unfold Model.fitTransform at h
  rw [h1, h2, Res.bind_eq_ok] at h
  obtain ⟨all, h3, h⟩ := h
  rw [Res.bind_eq_ok] at h
  obtain ⟨rules, h4, h⟩ := h
  cases h
  simp only [List.nil_append]
  have hall := C21_positive_threshold X _ all hX hpos h3
  have hn := (C21_sound_and_complete X _ all hX h3).1
  obtain ⟨rs, h5, h6⟩ := C24_rules all a.minConfidence (fun e he => ((hall e.1 e.2).mp he).2.1)
  rw [h4] at h5
  cases h5
  rw [h6]
  have hlast : ∀ s c, lastCount all s = some c ↔ s ≠ [] ∧ s.Pairwise (· < ·) ∧
      supportCount X.length a.minSupport ≤ support X s ∧ c = support X s := by
    intro s c
    rw [lastCount_eq_find hn, hall]
    constructor
    · exact fun h => h.1
    · intro h
      exact ⟨h, by omega⟩
  constructor
  · rintro ⟨f, cf, ca, h7, h8, h9, h10⟩
    rw [hlast] at h7 h8
    obtain ⟨_, g1, g2, rfl⟩ := h7
    obtain ⟨_, _, _, rfl⟩ := h8
    exact ⟨f, g1, g2, h9, h10⟩
  · rintro ⟨f, g1, g2, g3, g4⟩
    refine ⟨f, _, _, (hlast f _).mpr ⟨?_, g1, g2, rfl⟩, (hlast ante _).mpr ⟨g4.nonempty, g1.sublist g4.part, ?_, rfl⟩, g3, g4⟩
    · rintro rfl
      exact g4.nonempty (List.sublist_nil.mp g4.part)
    · exact Nat.le_trans g2 (support_anti fun v hv => g4.part.subset hv)

/-- C24, the order of recorded itemsets matters: from an unsorted recorded itemset a rule whose consequent repeats its
antecedent is produced. -/
theorem C24_unsorted_overlap : ∃ (table : Bucket) (rules : List Rule), transformData table 0 = .ok rules ∧
    ∃ a c conf x, (a, c, conf) ∈ rules ∧ x ∈ a ∧ x ∈ c := by
  obtain ⟨rs, h1, h2⟩ := rulesAll_spec (frequencyMap [([1], 1), ([2, 1], 1)]) 0 (frequencyMap [([1], 1), ([2, 1], 1)])
  exact ⟨[([1], 1), ([2, 1], 1)], rs, h1, [1], [2, 1], _, 1,
    (h2 _).mpr ⟨[2, 1], 1, [1], 1, by decide, by simp, by simp, by simp, by decide, by simp, rfl⟩, by simp, by simp⟩

example : ∃ rules, transformData [([1], 3), ([2], 4), ([1, 2], 3)] (4 / 5) = .ok rules ∧ ([1], [2], 1) ∈ rules ∧
    ∀ c, ([2], [1], c) ∉ rules := by
  obtain ⟨rs, h1, h2⟩ := C24_rules [([1], 3), ([2], 4), ([1, 2], 3)] (4 / 5) (by decide)
  refine ⟨rs, h1, (h2 _ _ _).mpr ⟨[1, 2], 3, 3, by decide, by decide, by norm_num,
    ⟨by decide, by simp, by simp, by decide, ?_, by norm_num⟩⟩, ?_⟩
  · intro x; simp; omega
  · intro c hc
    obtain ⟨f, cf, ca, h3, h4, h5, h6⟩ := (h2 _ _ _).mp hc
    have hf : f = [1, 2] := by
      have h7 := (lastCount_pos h3).2
      simp only [List.mem_cons, List.not_mem_nil, or_false, Prod.mk.injEq] at h7
      rcases h7 with ⟨rfl, _⟩ | ⟨rfl, _⟩ | ⟨rfl, _⟩
      · exact absurd h6.part (by decide)
      · exact absurd rfl h6.proper
      · rfl
    subst hf
    have e1 : lastCount [([1], 3), ([2], 4), ([1, 2], 3)] [1, 2] = some 3 := by decide
    have e2 : lastCount [([1], 3), ([2], 4), ([1, 2], 3)] [2] = some 4 := by decide
    rw [e1] at h3; rw [e2] at h4
    cases h3; cases h4
    rw [h6.confidence] at h5
    norm_num at h5

end OpenML
