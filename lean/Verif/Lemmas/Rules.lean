import Verif.Lemmas.Apriori

namespace OpenML.Apriori
open HashTree Combinations Spec

theorem lastCount_concat (all : Bucket) (e : List Nat × Nat) (s : List Nat) :
    lastCount (all ++ [e]) s = if e.1 = s ∧ 0 < e.2 then some e.2 else lastCount all s := by
  unfold lastCount
  rw [List.reverse_append]
  simp only [List.reverse_cons, List.reverse_nil, List.nil_append, List.singleton_append, List.find?_cons]
  by_cases h : e.1 = s ∧ 0 < e.2 <;> simp [h]

theorem frequencyMap_spec (all : Bucket) :
    ((frequencyMap all).map Prod.fst).Nodup ∧ ∀ s, find s (frequencyMap all) = lastCount all s := by
  induction all using List.reverseRecOn with
  | nil => exact ⟨by simp [frequencyMap], fun s => by simp [frequencyMap, lastCount, find]⟩
  | append_singleton all e ih =>
    have he : frequencyMap (all ++ [e]) = if 0 < e.2 then put lexLt e.1 e.2 (frequencyMap all) else frequencyMap all := by
      simp [frequencyMap, List.foldl_append]
    rw [he]
    by_cases h : 0 < e.2
    · rw [if_pos h]
      refine ⟨keys_put _ _ _ _ ih.1, fun s => ?_⟩
      rw [find_put, lastCount_concat, ih.2]
      by_cases hs : s = e.1
      · rw [if_pos hs, if_pos ⟨hs.symm, h⟩]
      · rw [if_neg hs, if_neg (fun h' => hs h'.1.symm)]
    · rw [if_neg h]
      refine ⟨ih.1, fun s => ?_⟩
      rw [lastCount_concat, ih.2, if_neg (fun h' => h h'.2)]

theorem lastCount_pos {all : Bucket} {s : List Nat} {c : Nat} (h : lastCount all s = some c) : 0 < c ∧ (s, c) ∈ all := by
  unfold lastCount at h
  rw [Option.map_eq_some_iff] at h
  obtain ⟨e, he, rfl⟩ := h
  have h1 := List.find?_some he
  have h2 := List.mem_of_find?_eq_some he
  simp only [decide_eq_true_eq] at h1
  obtain ⟨rfl, h1⟩ := h1
  exact ⟨h1, by simpa using h2⟩

theorem lastCount_eq_find {all : Bucket} (hn : (all.map Prod.fst).Nodup) {s : List Nat} {c : Nat} :
    lastCount all s = some c ↔ (s, c) ∈ all ∧ 0 < c := by
  constructor
  · intro h
    exact ⟨(lastCount_pos h).2, (lastCount_pos h).1⟩
  · rintro ⟨h, hc⟩
    cases hl : lastCount all s with
    | none =>
      unfold lastCount at hl
      simp only [Option.map_eq_none_iff, List.find?_eq_none, List.mem_reverse, decide_eq_true_eq] at hl
      exact absurd ⟨rfl, hc⟩ (hl (s, c) h)
    | some d =>
      have := find_of_mem hn h
      rw [find_of_mem hn (lastCount_pos hl).2] at this
      exact this

theorem mem_rulesFor {m : Bucket} {q : ℚ} {f : List Nat} {cf : Nat} {cs : List (List Nat)} {r : Rule} :
    r ∈ rulesFor m q f cf cs ↔ ∃ c n, c ∈ cs ∧ find c m = some n ∧ q ≤ (cf : ℚ) / (n : ℚ) ∧
      r = (c, VecOps.difference f c false, (cf : ℚ) / (n : ℚ)) := by
  induction cs with
  | nil => simp [rulesFor]
  | cons c cs ih =>
    unfold rulesFor
    cases hf : find c m with
    | none =>
      simp only [ih]
      constructor
      · rintro ⟨c', n, h1, h⟩; exact ⟨c', n, by simp [h1], h⟩
      · rintro ⟨c', n, h1, h2, h⟩
        rcases List.mem_cons.mp h1 with rfl | h1
        · rw [hf] at h2; simp at h2
        · exact ⟨c', n, h1, h2, h⟩
    | some n =>
      simp only
      by_cases hq : q ≤ (cf : ℚ) / (n : ℚ)
      · rw [if_pos hq, List.mem_cons, ih]
        constructor
        · rintro (h | ⟨c', n', h1, h⟩)
          · exact ⟨c, n, by simp, hf, hq, h⟩
          · exact ⟨c', n', by simp [h1], h⟩
        · rintro ⟨c', n', h1, h2, h3, h⟩
          rcases List.mem_cons.mp h1 with rfl | h1
          · rw [hf] at h2
            cases h2
            exact Or.inl h
          · exact Or.inr ⟨c', n', h1, h2, h3, h⟩
      · rw [if_neg hq, ih]
        constructor
        · rintro ⟨c', n', h1, h⟩; exact ⟨c', n', by simp [h1], h⟩
        · rintro ⟨c', n', h1, h2, h3, h⟩
          rcases List.mem_cons.mp h1 with rfl | h1
          · rw [hf] at h2
            cases h2
            exact absurd h3 hq
          · exact ⟨c', n', h1, h2, h3, h⟩

theorem rulesSizes_spec (m : Bucket) (q : ℚ) (f : List Nat) (cf : Nat) : ∀ (n i : Nat),
    ∃ rs, rulesSizes m q f cf n i = .ok rs ∧ ∀ r, r ∈ rs ↔ ∃ c k, c.Sublist f ∧ i ≤ c.length ∧ c.length < i + n ∧
      find c m = some k ∧ q ≤ (cf : ℚ) / (k : ℚ) ∧ r = (c, VecOps.difference f c false, (cf : ℚ) / (k : ℚ)) := by
  intro n
  induction n with
  | zero =>
    intro i
    refine ⟨[], rfl, fun r => ?_⟩
    simp only [List.not_mem_nil, false_iff]
    rintro ⟨c, k, _, h1, h2, _⟩
    omega
  | succ n ih =>
    intro i
    obtain ⟨rs, h1, h2⟩ := ih (i + 1)
    have hc := combinations_eq f i
    refine ⟨_, by simp only [rulesSizes, hc, h1, Res.bind_ok]; rfl, fun r => ?_⟩
    rw [List.mem_append, mem_rulesFor, h2]
    constructor
    · rintro (⟨c, k, h3, h⟩ | ⟨c, k, h3, h4, h5, h⟩)
      · have := (mem_combinations hc).mp h3
        exact ⟨c, k, this.1, by omega, by omega, h⟩
      · exact ⟨c, k, h3, by omega, by omega, h⟩
    · rintro ⟨c, k, h3, h4, h5, h⟩
      by_cases he : c.length = i
      · exact Or.inl ⟨c, k, (mem_combinations hc).mpr ⟨h3, he⟩, h⟩
      · exact Or.inr ⟨c, k, h3, by omega, by omega, h⟩

theorem rulesAll_spec (m : Bucket) (q : ℚ) (es : Bucket) :
    ∃ rs, rulesAll m q es = .ok rs ∧ ∀ r, r ∈ rs ↔ ∃ f cf c k, (f, cf) ∈ es ∧ c.Sublist f ∧ c ≠ [] ∧ c ≠ f ∧
      find c m = some k ∧ q ≤ (cf : ℚ) / (k : ℚ) ∧ r = (c, VecOps.difference f c false, (cf : ℚ) / (k : ℚ)) := by
  induction es with
  | nil => exact ⟨[], rfl, by simp⟩
  | cons e es ih =>
    obtain ⟨rs, h1, h2⟩ := ih
    obtain ⟨f, cf⟩ := e
    have hhead : ∃ r0, (if f.length = 1 then Res.ok [] else rulesSizes m q f cf (f.length - 1) 1) = .ok r0 ∧
        ∀ r, r ∈ r0 ↔ ∃ c k, c.Sublist f ∧ c ≠ [] ∧ c ≠ f ∧
          find c m = some k ∧ q ≤ (cf : ℚ) / (k : ℚ) ∧ r = (c, VecOps.difference f c false, (cf : ℚ) / (k : ℚ)) := by
      by_cases hl : f.length = 1
      · refine ⟨[], by rw [if_pos hl], fun r => ?_⟩
        simp only [List.not_mem_nil, false_iff]
        rintro ⟨c, k, h3, h4, h5, _⟩
        have := h3.length_le
        have hc : c.length ≠ 0 := fun h => h4 (List.length_eq_zero_iff.mp h)
        exact h5 (h3.eq_of_length (by omega))
      · obtain ⟨r0, h3, h4⟩ := rulesSizes_spec m q f cf (f.length - 1) 1
        refine ⟨r0, by rw [if_neg hl, h3], fun r => ?_⟩
        rw [h4]
        constructor
        · rintro ⟨c, k, h5, h6, h7, h⟩
          refine ⟨c, k, h5, ?_, ?_, h⟩
          · rintro rfl; simp at h6
          · rintro rfl; omega
        · rintro ⟨c, k, h5, h6, h7, h⟩
          have hc : c.length ≠ 0 := fun h => h6 (List.length_eq_zero_iff.mp h)
          have hlt : c.length ≠ f.length := fun h => h7 (h5.eq_of_length h)
          have := h5.length_le
          exact ⟨c, k, h5, by omega, by omega, h⟩
    obtain ⟨r0, h3, h4⟩ := hhead
    refine ⟨r0 ++ rs, ?_, fun r => ?_⟩
    · by_cases hl : f.length = 1
      · rw [if_pos hl] at h3
        cases h3
        simp [rulesAll, hl, h1]
      · rw [if_neg hl] at h3
        simp [rulesAll, hl, h1, h3]
    rw [List.mem_append, h4, h2]
    constructor
    · rintro (⟨c, k, h⟩ | ⟨f', cf', c, k, h5, h⟩)
      · exact ⟨f, cf, c, k, by simp, h⟩
      · exact ⟨f', cf', c, k, by simp [h5], h⟩
    · rintro ⟨f', cf', c, k, h5, h⟩
      rcases List.mem_cons.mp h5 with h6 | h6
      · cases h6
        exact Or.inl ⟨c, k, h⟩
      · exact Or.inr ⟨f', cf', c, k, h6, h⟩

theorem eq_of_increasing {c d : List Nat} (hc : c.Pairwise (· < ·)) (hd : d.Pairwise (· < ·)) (h : ∀ x, x ∈ c ↔ x ∈ d) :
    c = d := by
  refine List.Perm.eq_of_pairwise (le := (· < ·)) (by intro a b _ _ h1 h2; omega) hc hd
    ((List.perm_ext_iff_of_nodup (hc.imp fun h e => by omega) (hd.imp fun h e => by omega)).mpr h)

theorem transformData_spec (all : Bucket) (q : ℚ) (hinc : ∀ e ∈ all, e.1.Pairwise (· < ·)) :
    ∃ rs, transformData all q = .ok rs ∧ ∀ a c conf, (a, c, conf) ∈ rs ↔ ∃ f cf ca, lastCount all f = some cf ∧
      lastCount all a = some ca ∧ q ≤ conf ∧ IsRule f a c cf ca conf := by
  obtain ⟨hn, hf⟩ := frequencyMap_spec all
  obtain ⟨rs, h1, h2⟩ := rulesAll_spec (frequencyMap all) q (frequencyMap all)
  refine ⟨rs, h1, fun a c conf => ?_⟩
  rw [h2]
  have hdiff : ∀ f a cf, lastCount all f = some cf → a.Sublist f →
      (VecOps.difference f a false).Pairwise (· < ·) ∧ ∀ x, x ∈ VecOps.difference f a false ↔ x ∈ f ∧ x ∉ a := by
    intro f a cf h hs
    have hfi := hinc (f, cf) (lastCount_pos h).2
    exact VecOps.difference_spec f a false
      (Or.inr ⟨hfi.imp fun h => Nat.le_of_lt h, (hfi.sublist hs).imp fun h => Nat.le_of_lt h⟩)
  constructor
  · rintro ⟨f, cf, a', k, h3, h4, h5, h6, h7, h8, h9⟩
    simp only [Prod.mk.injEq] at h9
    obtain ⟨rfl, rfl, rfl⟩ := h9
    rw [mem_iff_find hn, hf] at h3
    rw [hf] at h7
    obtain ⟨d1, d2⟩ := hdiff f a cf h3 h4
    exact ⟨f, cf, k, h3, h7, h8, ⟨h4, h5, h6, d1, d2, rfl⟩⟩
  · rintro ⟨f, cf, ca, h3, h4, h5, h6⟩
    obtain ⟨d1, d2⟩ := hdiff f a cf h3 h6.part
    refine ⟨f, cf, a, ca, ?_, h6.part, h6.nonempty, h6.proper, ?_, ?_, ?_⟩
    · rw [mem_iff_find hn, hf]; exact h3
    · rw [hf]; exact h4
    · rw [← h6.confidence]; exact h5
    · have := eq_of_increasing h6.consequentSorted d1 fun x => (h6.consequent x).trans (d2 x).symm
      rw [this, h6.confidence]

end OpenML.Apriori
