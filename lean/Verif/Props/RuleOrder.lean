import Verif.Spec.RuleOrder
import Verif.Props.Apriori

/-!
# C24: the order of the rules
-/

namespace OpenML

open Apriori HashTree Combinations Spec

namespace RuleOrder

theorem lexLt_iff (a b : List Nat) : lexLt a b = true ↔ a < b := by
  induction a generalizing b with
  | nil => cases b <;> simp [lexLt]
  | cons x a ih =>
    cases b with
    | nil => simp [lexLt]
    | cons y b =>
      rw [lexLt, List.cons_lt_cons_iff]
      by_cases h1 : x < y
      · simp [h1]
      · rw [if_neg h1]
        by_cases h2 : y < x
        · simp only [h2, if_true]
          simp only [Bool.false_eq_true, false_iff]
          omega
        · rw [if_neg h2, ih]
          have : x = y := by omega
          simp [this]

theorem insertNew_sorted (k : List Nat) (v : Nat) (m : Bucket) (hm : (m.map Prod.fst).Pairwise (· < ·)) (hk : k ∉ m.map Prod.fst) :
    ((insertNew lexLt k v m).map Prod.fst).Pairwise (· < ·) := by
  induction m with
  | nil => simp [insertNew]
  | cons p r ih =>
    rw [List.map_cons, List.pairwise_cons] at hm
    unfold insertNew
    by_cases h : lexLt k p.1 = true
    · rw [if_pos h, List.map_cons, List.map_cons, List.pairwise_cons, List.pairwise_cons]
      rw [lexLt_iff] at h
      refine ⟨?_, hm⟩
      intro b hb
      rcases List.mem_cons.mp hb with rfl | hb
      · exact h
      · exact List.lt_trans h (hm.1 b hb)
    · rw [if_neg h, List.map_cons, List.pairwise_cons]
      rw [lexLt_iff] at h
      rw [List.map_cons, List.mem_cons, not_or] at hk
      refine ⟨?_, ih hm.2 hk.2⟩
      intro b hb
      rw [(keys_insertNew lexLt k v r).mem_iff] at hb
      rcases List.mem_cons.mp hb with rfl | hb
      · exact lt_of_le_of_ne (not_lt.mp h) (Ne.symm hk.1)
      · exact hm.1 b hb

theorem put_sorted (k : List Nat) (v : Nat) (m : Bucket) (hm : (m.map Prod.fst).Pairwise (· < ·)) :
    ((put lexLt k v m).map Prod.fst).Pairwise (· < ·) := by
  unfold put
  cases h : find k m with
  | some w => simpa [keys_replace] using hm
  | none => exact insertNew_sorted k v m hm (find_eq_none.mp h)

theorem frequencyMap_sorted (all : Bucket) : ((frequencyMap all).map Prod.fst).Pairwise (· < ·) := by
  have h : ∀ m : Bucket, (m.map Prod.fst).Pairwise (· < ·) →
      ((all.foldl (fun m e => if 0 < e.2 then put lexLt e.1 e.2 m else m) m).map Prod.fst).Pairwise (· < ·) := by
    induction all with
    | nil => exact fun m hm => hm
    | cons e all ih =>
      intro m hm
      rw [List.foldl_cons]
      apply ih
      split
      · exact put_sorted _ _ _ hm
      · exact hm
  exact h [] (by simp)

theorem select_sublist (m : List Bool) (x : List Nat) : (select m x).Sublist x := by
  induction x generalizing m with
  | nil => cases m <;> simp [select]
  | cons a x ih =>
    cases m with
    | nil => simp [select]
    | cons b m =>
      cases b
      · simpa [select] using (ih m).cons a
      · simpa [select] using (ih m).cons₂ a

theorem select_length {n k : Nat} {m : List Bool} (hm : m ∈ masks n k) {x : List Nat} (hx : x.length = n) :
    (select m x).length = k := by
  subst hx
  exact ((mem_select_masks x k (select m x)).mp ⟨m, hm, rfl⟩).2

theorem select_lex (x : List Nat) (hx : x.Pairwise (· < ·)) (k : Nat) : ((masks x.length k).map (select · x)).Pairwise (· < ·) := by
  induction x generalizing k with
  | nil => cases k <;> simp [masks]
  | cons a x ih =>
    rw [List.pairwise_cons] at hx
    cases k with
    | zero =>
      simp only [List.length_cons, masks, List.map_map]
      have := ih hx.2 0
      simpa [Function.comp_def, select] using this
    | succ k =>
      simp only [List.length_cons, masks, List.map_append, List.map_map]
      rw [List.pairwise_append]
      refine ⟨?_, ?_, ?_⟩
      · have := ih hx.2 k
        rw [List.pairwise_map] at this ⊢
        refine this.imp fun h => ?_
        simp only [Function.comp_apply, select, if_true]
        exact List.cons_lt_cons_self.mpr h
      · have := ih hx.2 (k + 1)
        simpa [Function.comp_def, select] using this
      · intro b hb c hc
        obtain ⟨m, hm, rfl⟩ := List.mem_map.mp hb
        obtain ⟨m', hm', rfl⟩ := List.mem_map.mp hc
        simp only [Function.comp_apply, select, if_true, Bool.false_eq_true, if_false]
        cases hs : select m' x with
        | nil =>
          have := select_length hm' (x := x) rfl
          rw [hs] at this
          simp at this
        | cons y s =>
          rw [List.cons_lt_cons_iff]
          left
          apply hx.1
          apply (select_sublist m' x).subset
          rw [hs]
          simp

/-- Antecedents of the same itemset: shorter first, then lexicographic. -/
def AnteBefore (a a' : List Nat) : Prop := a.length < a'.length ∨ a.length = a'.length ∧ a < a'

theorem rulesFor_sublist (m : Bucket) (q : ℚ) (f : List Nat) (cf : Nat) (cs : List (List Nat)) :
    ((rulesFor m q f cf cs).map Prod.fst).Sublist cs := by
  induction cs with
  | nil => simp [rulesFor]
  | cons c cs ih =>
    unfold rulesFor
    split
    · split
      · simpa using ih
      · exact ih.cons c
    · exact ih.cons c

theorem rulesSizes_sorted (m : Bucket) (q : ℚ) (f : List Nat) (cf : Nat) (hf : f.Pairwise (· < ·)) : ∀ (n i : Nat) (rs : List Rule),
    rulesSizes m q f cf n i = .ok rs → (rs.map Prod.fst).Pairwise AnteBefore ∧ ∀ r ∈ rs, i ≤ r.1.length := by
  intro n
  induction n with
  | zero =>
    intro i rs h
    cases h
    simp
  | succ n ih =>
    intro i rs h
    simp only [rulesSizes, Res.bind_eq_ok] at h
    obtain ⟨cs, hc, rest, hr, h⟩ := h
    cases h
    obtain ⟨h1, h2⟩ := ih (i + 1) rest hr
    rw [combinations_eq] at hc
    have hlen : ∀ a ∈ (rulesFor m q f cf cs).map Prod.fst, a.length = i := by
      intro a ha
      have := (rulesFor_sublist m q f cf cs).subset ha
      cases hc
      obtain ⟨mk, hmk, rfl⟩ := List.mem_map.mp this
      exact select_length hmk rfl
    have hlex : ((rulesFor m q f cf cs).map Prod.fst).Pairwise (· < ·) := by
      cases hc
      exact (select_lex f hf i).sublist (rulesFor_sublist m q f cf _)
    refine ⟨?_, ?_⟩
    · rw [List.map_append, List.pairwise_append]
      refine ⟨?_, h1, ?_⟩
      · refine hlex.imp_of_mem fun ha hb h => ?_
        exact Or.inr ⟨(hlen _ ha).trans (hlen _ hb).symm, h⟩
      · intro a ha b hb
        left
        rw [hlen a ha]
        obtain ⟨r, hr, rfl⟩ := List.mem_map.mp hb
        exact h2 r hr
    · intro r hr
      rcases List.mem_append.mp hr with h | h
      · rw [hlen r.1 (List.mem_map_of_mem h)]
      · exact Nat.le_of_succ_le (h2 r h)

theorem rulesAll_sorted (m : Bucket) (q : ℚ) (es : Bucket) (hs : (es.map Prod.fst).Pairwise (· < ·))
    (hi : ∀ e ∈ es, e.1.Pairwise (· < ·)) {rs : List Rule} (h : rulesAll m q es = .ok rs) : rs.Pairwise RuleBefore := by
  induction es generalizing rs with
  | nil => cases h; simp
  | cons e es ih =>
    obtain ⟨f, cf⟩ := e
    have h' : ∃ r0, (if f.length = 1 then Res.ok [] else rulesSizes m q f cf (f.length - 1) 1) = .ok r0 ∧
        ∃ rest, rulesAll m q es = .ok rest ∧ rs = r0 ++ rest := by
      by_cases hl : f.length = 1
      · simp only [rulesAll, hl, if_true, Res.bind_eq_ok] at h
        obtain ⟨r0, h0, rest, hr, h⟩ := h
        cases h
        exact ⟨r0, by rw [if_pos hl]; exact h0, rest, hr, rfl⟩
      · simp only [rulesAll, hl, if_false, Res.bind_eq_ok] at h
        obtain ⟨r0, h0, rest, hr, h⟩ := h
        cases h
        exact ⟨r0, by rw [if_neg hl]; exact h0, rest, hr, rfl⟩
    obtain ⟨r0, h0, rest, hr, rfl⟩ := h'
    rw [List.map_cons, List.pairwise_cons] at hs
    have hfi := hi (f, cf) (by simp)
    have hunion : ∀ (e : List Nat × Nat), e.1.Pairwise (· < ·) → ∀ c : List Nat, c.Sublist e.1 → ∀ g : List Nat, g.Pairwise (· < ·) →
        (∀ x, x ∈ g ↔ x ∈ c ∨ x ∈ VecOps.difference e.1 c false) → g = e.1 := by
      intro e he c hc g hg hx
      refine eq_of_increasing hg he fun x => ?_
      rw [hx, (VecOps.difference_spec e.1 c false
        (Or.inr ⟨he.imp fun h => Nat.le_of_lt h, (he.sublist hc).imp fun h => Nat.le_of_lt h⟩)).2]
      have := hc.subset (a := x)
      tauto
    have hr0 : r0.Pairwise (fun r r' => AnteBefore r.1 r'.1) ∧
        ∀ r ∈ r0, ∃ k, r = (r.1, VecOps.difference f r.1 false, k) ∧ r.1.Sublist f := by
      by_cases hl : f.length = 1
      · rw [if_pos hl] at h0
        cases h0
        simp
      · rw [if_neg hl] at h0
        refine ⟨List.pairwise_map.mp (rulesSizes_sorted m q f cf hfi _ _ _ h0).1, ?_⟩
        obtain ⟨r1, h1, h2⟩ := rulesSizes_spec m q f cf (f.length - 1) 1
        rw [h0] at h1
        cases h1
        intro r hr
        obtain ⟨c, k, h3, -, -, -, -, rfl⟩ := (h2 r).mp hr
        exact ⟨_, rfl, h3⟩
    rw [List.pairwise_append]
    refine ⟨?_, ih hs.2 (fun e he => hi e (List.mem_cons_of_mem _ he)) hr, ?_⟩
    · refine hr0.1.imp_of_mem ?_
      intro r r' hr hr' hb g g' hg hg' hx hx'
      obtain ⟨k, e, hsub⟩ := hr0.2 r hr
      obtain ⟨k', e', hsub'⟩ := hr0.2 r' hr'
      right
      have d : r.2.1 = VecOps.difference f r.1 false := congrArg (fun z => z.2.1) e
      have d' : r'.2.1 = VecOps.difference f r'.1 false := congrArg (fun z => z.2.1) e'
      refine ⟨?_, hb⟩
      rw [hunion (f, cf) hfi r.1 hsub g hg (fun x => by rw [hx, d]), hunion (f, cf) hfi r'.1 hsub' g' hg' (fun x => by rw [hx', d'])]
    · intro r hr1 r' hr2 g g' hg hg' hx hx'
      obtain ⟨k, e, hsub⟩ := hr0.2 r hr1
      have d : r.2.1 = VecOps.difference f r.1 false := congrArg (fun z => z.2.1) e
      obtain ⟨r2, h1, h2⟩ := rulesAll_spec m q es
      rw [hr] at h1
      cases h1
      obtain ⟨f', cf', c, k', h3, h4, -, -, -, -, rfl⟩ := (h2 r').mp hr2
      left
      rw [hunion (f, cf) hfi r.1 hsub g hg (fun x => by rw [hx, d]),
        hunion (f', cf') (hi _ (List.mem_cons_of_mem _ h3)) c h4 g' hg' hx']
      exact hs.1 f' (List.mem_map_of_mem h3)

end RuleOrder

open RuleOrder

/-- C24: the rules are listed in a fixed order, whatever the order in which itemsets were recorded: by itemset in lexicographic order
(which puts an itemset before its extensions, not shorter itemsets before longer ones), then by the length of the antecedent, then
lexicographically by antecedent. Together with `C24_rules` this determines the list of rules. -/
theorem C24_order (table : Bucket) (minConfidence : ℚ) (hinc : ∀ e ∈ table, e.1.Pairwise (· < ·)) {rules : List Rule}
    (h : transformData table minConfidence = .ok rules) : rules.Pairwise RuleBefore := by
  refine rulesAll_sorted _ _ _ (frequencyMap_sorted table) ?_ h
  intro e he
  obtain ⟨hn, hf⟩ := frequencyMap_spec table
  have := find_of_mem hn (show (e.1, e.2) ∈ frequencyMap table from he)
  rw [hf] at this
  exact hinc (e.1, e.2) (lastCount_pos this).2

/-- Beside C24_order: the rules of {1,2,3} come before those of the shorter {1,3}, recorded first. -/
example : (∀ e ∈ ([([1, 3], 1), ([1, 2, 3], 1), ([2], 1), ([1], 1)] : Bucket), e.1.Pairwise (· < ·)) ∧
    transformData [([1, 3], 1), ([1, 2, 3], 1), ([2], 1), ([1], 1)] 1 =
      .ok [([1], [2, 3], 1), ([2], [1, 3], 1), ([1, 3], [2], 1), ([1], [3], 1)] := by
  decide +kernel

end OpenML
